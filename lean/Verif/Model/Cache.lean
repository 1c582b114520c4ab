import Verif.Model.Repo
/-
The bounded cache between the two directions of a backup session:
`_CacheCollatedPostProcess` (RS 2167-2466) with the operations the patching of the mirror does on it (RS 2469-2806), and
`CacheIndexable` (rorpiter.py 247-300), the cache at the source.

Simplified: the list of indices and the dictionary are one list of entries (indices are not repeated, C11).
Permissions of unreadable directories (`dir_perms_list`) are not modelled, hard links are C30.
What `_post_process` gets is collected in `out`: the metadata file is a function of it (`metaOf`).
`none` is an exception (`KeyError`, `IndexError` or a failed assertion), which ends the session.
-/
namespace Verif.Cache
open Verif.Repo Verif.FillIn Verif.Collate Verif.MetaChain

section
variable {α V W H : Type} [LinearOrder α]

/-- RS 2215-2226: `[source_rorp, dest_rorp, changed_flag, success_flag, increment]` with its index; `sha`: the SHA1 attached to
`source_rorp`, which has none when it comes from the source. -/
structure Entry (α V W H : Type) where
  idx : List α
  src : Option V
  dst : Option W
  changed : Bool
  success : Nat
  inc : Bool
  sha : Option H

/-- index and the two sides -/
abbrev Pair (α V W : Type) := List α × Option V × Option W

/-- what does not change of an entry (RS 2215) -/
def Entry.key (e : Entry α V W H) : Pair α V W := (e.idx, e.src, e.dst)

/-- RS 2199-2236 `__init__`; `out`: the entries which have been through `_post_process`, in order -/
structure Ccpp (α V W H : Type) where
  size : Nat
  items : List (Entry α V W H)
  parents : List (Pair α V W)
  out : List (Entry α V W H)

/-- RS 2199-2236 -/
def Ccpp.empty (N : Nat) : Ccpp α V W H := ⟨N, [], [], []⟩

/-- RS 2246: a new entry -/
def fresh (p : Pair α V W) : Entry α V W H := ⟨p.1, p.2.1, p.2.2, false, 0, false, none⟩

/-- `last_parent_index[: li - 1]` RS 2413; for `li = 0` Python counts from the end -/
def upTo (last : List α) (li : Nat) : List α := if li = 0 then last.dropLast else last.take (li - 1)

/-- RS 2385-2420 `_update_parent_list` -/
def updateParents (sdir : V → Bool) (ddir : W → Bool) (ps : List (Pair α V W)) (k : Pair α V W) : Option (List (Pair α V W)) :=
  if !(k.2.1.any sdir || k.2.2.any ddir) then some ps else
  match ps.getLast? with
  | none => if k.1 = [] then some [k] else none
  | some last =>
    if k.1.length ≤ last.1.length + 1 then
      if k.1.length ≤ last.1.length then
        if upTo last.1 k.1.length = k.1.dropLast then some (ps.take k.1.length ++ [k]) else none
      else some (ps ++ [k])
    else none

variable (sdir : V → Bool) (ddir : W → Bool)

/-- RS 2359-2383 `_shorten_cache` -/
def Ccpp.shorten (s : Ccpp α V W H) : Option (Ccpp α V W H) :=
  match s.items with
  | [] => none
  | e :: rest =>
    (updateParents sdir ddir s.parents e.key).map fun ps => { s with items := rest, parents := ps, out := s.out ++ [e] }

/-- RS 2241-2252 `__next__`, for the pair that has been read -/
def Ccpp.next (s : Ccpp α V W H) (p : Pair α V W) : Option (Ccpp α V W H) :=
  let s' : Ccpp α V W H := { s with items := s.items ++ [fresh p] }
  if s'.items.length > s'.size then s'.shorten sdir ddir else some s'

/-- RS 2321-2325 `close`: everything left -/
def Ccpp.close (s : Ccpp α V W H) : Option (Ccpp α V W H) := s.items.foldlM (fun s _ => s.shorten sdir ddir) s

/-- `self.cache_dict[index]` -/
def Ccpp.find (s : Ccpp α V W H) (i : List α) : Option (Entry α V W H) := s.items.find? fun e => e.idx = i

/-- RS 2250-2252 `in_cache` -/
def Ccpp.inCache (s : Ccpp α V W H) (i : List α) : Bool := (s.find i).isSome

/-- an assignment to `self.cache_dict[index][...]` -/
def Ccpp.modify (s : Ccpp α V W H) (i : List α) (f : Entry α V W H → Entry α V W H) : Option (Ccpp α V W H) :=
  if s.inCache i then some { s with items := s.items.map fun e => if e.idx = i then f e else e } else none

/-- RS 2254-2256 `flag_success` (1), `flag_deleted` (2) -/
def Ccpp.flag (s : Ccpp α V W H) (i : List α) (v : Nat) : Option (Ccpp α V W H) := s.modify i fun e => { e with success := v }

/-- RS 2262-2264 `flag_changed` -/
def Ccpp.flagChanged (s : Ccpp α V W H) (i : List α) : Option (Ccpp α V W H) := s.modify i fun e => { e with changed := true }

/-- RS 2266-2268 `set_inc` -/
def Ccpp.setInc (s : Ccpp α V W H) (i : List α) : Option (Ccpp α V W H) := s.modify i fun e => { e with inc := true }

/-- RS 2460-2465 `_get_parent_rorps` -/
def Ccpp.parentRorps (s : Ccpp α V W H) (i : List α) : Option (Option V × Option W) :=
  (s.parents.find? fun p => p.1 = i).map (·.2)

/-- RS 2274-2279 `get_rorps` -/
def Ccpp.rorps (s : Ccpp α V W H) (i : List α) : Option (Option V × Option W) :=
  match s.find i with
  | some e => some (e.src, e.dst)
  | none => s.parentRorps i

/-- RS 2281-2290 `get_source_rorp`: the assertion comes first -/
def Ccpp.source (s : Ccpp α V W H) (i : List α) : Option (Option V) :=
  match s.items with
  | [] => none
  | e :: _ => if i < e.idx then none else (s.rorps i).map (·.1)

/-- RS 2292-2297 `get_mirror_rorp` -/
def Ccpp.mirror (s : Ccpp α V W H) (i : List α) : Option (Option W) := (s.rorps i).map (·.2)

/-- RS 2299-2311 `update_hash`: the cache, and whether the hash is another one; `shaOf`: the hash in the recorded metadata -/
def Ccpp.updateHash [DecidableEq H] (shaOf : W → Option H) (s : Ccpp α V W H) (i : List α) (h : H) :
    Option (Ccpp α V W H × Bool) :=
  (s.mirror i).bind fun m => (s.source i).bind fun v =>
    if v.isSome then
      (if s.inCache i then s.modify i fun e => { e with sha := some h } else some s).map fun s' =>
        (s', decide (m.bind shaOf ≠ some h))
    else none

/-- RS 2422-2452 `_post_process`: the record written for an entry; `new`: of the source file with its hash, `old`: the recorded one -/
def metaOf {R : Type} (new : V → Option H → R) (old : W → R) (e : Entry α V W H) : Option R :=
  if e.success = 0 then e.dst.map old else if e.success = 1 then e.src.map (fun v => new v e.sha) else none

end

/-! ### A session with it -/

section
variable {α A C S H Δ L : Type} [LinearOrder α] [DecidableEq A] [DecidableEq S] [DecidableEq H]
variable (o : Ops A C H Δ L) (c : Ctx α A C S H Δ)

/-- the cache of a session -/
abbrev SCache (α A C S H : Type) := Ccpp α (Node A C S) (MRec A S H) H

/-- `has_sha1`, `get_sha1` of a recorded file (rpath.py 640-660) -/
def recSha : MRec A S H → Option H
  | .reg _ _ h => h
  | _ => none

/-- the record of a source file with the attached hash (meta/stdattr.py 60-125) -/
def recOf (n : Node A C S) (h : Option H) : MRec A S H :=
  match n with
  | .dir a => .dir a
  | .reg a x => .reg a (o.size x) h
  | .other a s => .other a s

/-- RS 2755-2776: after a file was patched: increment (not in the first backup), then the flag -/
def finishFast (s : SCache α A C S H) (i : List α) (v : Option Nat) : Option (SCache α A C S H) :=
  (if c.prev.isSome then s.setInc i else some s).bind fun s =>
    match v with
    | some v => s.flag i v
    | none => some s

/-- RS 2632-2657 with 2299-2311: the reported hash is compared and kept, if there is one -/
def putHash (s : SCache α A C S H) (i : List α) (x : C) : Option (SCache α A C S H × Bool) :=
  if c.s.nohash i then some (s, true) else s.updateHash recSha i (o.sha x)

/-- RS 2664-2685 `_matches_cached_rorp` for the new content `x` (type and size; the attributes have just been copied) -/
def matchesCached (s : SCache α A C S H) (i : List α) (x : C) : Option Bool :=
  (s.source i).map fun v =>
    match v with
    | some (.reg _ y) => o.size y == o.size x
    | _ => false

/-- RS 2742-2780 (first backup: 2506-2535) `fast_process_file`: what it does to the cache -/
def fastWork (s : SCache α A C S H) (i : List α) : Option (SCache α A C S H) :=
  (s.rorps i).bind fun _ =>
  match c.src i with
  | none => finishFast c s i (if (c.mirror i).isSome then some 2 else none)
  | some (.dir _) => some s
  | some (.other _ _) => if c.s.fails i then some s else finishFast c s i (some 1)
  | some (.reg _ cont) =>
    if c.s.fails i then some s else
    match c.dst i, c.mirror i with
    | some (.reg _ _ _), some (.reg _ old) =>
      (putHash o c s i (o.patch old (o.delta old cont))).bind fun r =>
        if r.2 then
          (matchesCached o r.1 i (o.patch old (o.delta old cont))).bind fun b => if b then finishFast c r.1 i (some 1) else some r.1
        else r.1.flag i 1
    | _, _ =>
      (putHash o c s i cont).bind fun r =>
        (matchesCached o r.1 i cont).bind fun b => if b then finishFast c r.1 i (some 1) else some r.1

/-- RS 2782-2806 (first backup: 2537-2549) `start_process_directory` with `_prepare_dir` 2715-2729 and `_set_dir_replacement`
2690-2713: what it does to the cache.  A failing transfer of the replacement is not modelled, as in `Repo.startSteps`. -/
def startWork (s : SCache α A C S H) (x : Bool × List α) : Option (SCache α A C S H) :=
  (s.rorps x.2).bind fun _ =>
  if isDirNode (if x.1 then c.src x.2 else c.mirror x.2) then
    if isDirNode (c.mirror x.2) then
      if s.inCache x.2 then s.flag x.2 1 else some s
    else s.flag x.2 1
  else
    match c.src x.2 with
    | some (.reg _ cont) =>
      (putHash o c s x.2 cont).bind fun r => (matchesCached o r.1 x.2 cont).bind fun b =>
        if b then finishFast c r.1 x.2 (some 1) else some r.1
    | some _ => finishFast c s x.2 (some 1)
    | none => finishFast c s x.2 (some (if c.prev.isSome then 1 else 2))

/-- RS 2498-2501 `can_fast_process` and what follows (rorpiter.py 120-165), for one element of the filled-in diffs -/
def work (s : SCache α A C S H) (x : Bool × List α) : Option (SCache α A C S H) :=
  (s.mirror x.2).bind fun m =>
    if isDirNode (if x.1 then c.src x.2 else c.mirror x.2) || isDirRec m then startWork o c s x else fastWork o c s x.2

/-- a session under way: the cache and the pairs that have not been read -/
structure Run (α A C S H : Type) where
  cache : SCache α A C S H
  todo : List (Pair α (Node A C S) (MRec A S H))

/-- RS 567-594 `_sigs_iterator`: read one pair -/
def pull (r : Run α A C S H) : Option (Run α A C S H) :=
  match r.todo with
  | [] => some r
  | p :: ps =>
    (r.cache.next Node.isDir MRec.isDir p).bind fun s =>
      (if changedPair o p.2.1 p.2.2 then s.flagChanged p.1 else some s).map fun s' => ⟨s', ps⟩

/-- read `n` pairs -/
def pulls : Nat → Run α A C S H → Option (Run α A C S H)
  | 0, r => some r
  | n + 1, r => (pull o r).bind (pulls n)

/-- read on until `n` pairs have been read altogether -/
def pullTo (n : Nat) (r : Run α A C S H) : Option (Run α A C S H) := pulls o (n - (c.pairs.length - r.todo.length)) r

/-- rorpiter.py 394-434: each diff with the directories filled in before it, for `fillRest` -/
def groupsRest (old : List α) : List (List α) → List (List α × List (Bool × List α))
  | [] => []
  | cur :: rest => (cur, fillOne old cur) :: groupsRest cur rest

/-- rorpiter.py 394-434 -/
def groups : List (List α) → List (List α × List (Bool × List α))
  | [] => []
  | first :: rest => (first, fillFirst first) :: groupsRest first rest

/-- RS 273-295 `apply`: one diff arrives, when `n` pairs have been read -/
def arrive (r : Run α A C S H) (n : Nat) (g : List (Bool × List α)) : Option (Run α A C S H) :=
  (pullTo o c n r).bind fun r => (g.foldlM (work o c) r.cache).map fun s => ⟨s, r.todo⟩

/-- RS 262-295 `get_sigs` and `apply`: the metadata written with a cache of `N` entries, if `sched i` pairs have been
read when the diff of `i` is processed. -/
def boundedListing (N : Nat) (sched : List α → Nat) : Option (List (Rec (List α) (MRec A S H))) :=
  ((groups (c.changed o)).foldlM (fun r g => arrive o c r (sched g.1) g.2) ⟨Ccpp.empty N, c.pairs⟩).bind fun r =>
  (pullTo o c c.pairs.length r).bind fun r =>
  (r.cache.close Node.isDir MRec.isDir).map fun s =>
    s.out.filterMap fun e => (metaOf (recOf o) id e).map fun m => ⟨e.idx, some m⟩

/-- A complete backup session as in `Repo.backup`, but with a cache of `N` entries, and diffs which are processed when `sched`
says: it ends with an exception when the cache does not have what is needed. -/
def backupBounded (N : Nat) (sched : Ctx α A C S H Δ → List α → Nat) (st : State α A C S H Δ) (s : Sess α A C S H Δ) :
    Option (State α A C S H Δ) :=
  match mirrorTime st with
  | none => none
  | some prev =>
    if prev.any (fun t => s.now ≤ t) then none else
    match destOf o st prev with
    | none => none
    | some dest =>
      let c : Ctx α A C S H Δ := ⟨st, s, prev, dest⟩
      match c.events o, boundedListing o c N (sched c) with
      | some evs, some listing =>
        match convertSteps s.junkMeta (⟨s.now, true, listing⟩ :: st.metas) with
        | some conv =>
          let work : List (Step α A C S H Δ) := .putMeta ⟨s.now, true, s.junkMeta⟩ ::
            (evs.flatMap (c.eventSteps o) ++ .putMeta ⟨s.now, true, listing⟩ :: conv)
          exec s.stamp (match prev with
            | some t => .mark s.now :: (work ++ [.unmark t])
            | none => work ++ [.mark s.now]) st
        | none => none
      | _, _ => none

end

/-! ### Between two computers: the blocks in which signatures and diffs are sent -/

/-- what the iterator of signatures yields, with the number of pairs read (RS 567-594): a signature, or `MiscIterFlushRepeat` -/
inductive Tok where
  | sig (pos : Nat)
  | flush (read : Nat)
deriving DecidableEq, Repr

/-- the number of pairs read when it is yielded -/
def Tok.read : Tok → Nat
  | .sig p => p + 1
  | .flush n => n

/-- whether it is `MiscIterFlushRepeat` (iterfile.py 306-316) -/
def Tok.isFlush : Tok → Bool
  | .sig _ => false
  | .flush _ => true

/-- RS 567-594 `_sigs_iterator` of a remote backup: `num_rorps_seen`, the position, and which pairs have changed -/
def tokens (threshold : Nat) : Nat → Nat → List Bool → List Tok
  | _, _, [] => []
  | seen, pos, b :: bs =>
    if seen + 1 > threshold then .flush (pos + 1) :: ((if b then [.sig pos] else []) ++ tokens threshold 0 (pos + 1) bs)
    else (if b then [.sig pos] else []) ++ tokens threshold (seen + 1) (pos + 1) bs

/-- iterfile.py 347-373 `MiscIterToFile.read` with 390-415: the length of the next block; `full`: are
the limits of the buffer reached? (in bytes, in files: any condition). The buffer is empty at the start, then it is not full. -/
def blockLen (full : List Tok → Bool) : List Tok → List Tok → Nat
  | _, [] => 0
  | buf, t :: ts => if t.isFlush then 1 else if full (buf ++ [t]) then 1 else 1 + blockLen full (buf ++ [t]) ts

/-- where the blocks end (iterfile.py 347-373), counted from `k`; `fuel`: number of elements -/
def blockEnds (full : List Tok → Bool) : Nat → Nat → List Tok → List Nat
  | 0, _, _ => []
  | fuel + 1, k, ts =>
    match ts with
    | [] => []
    | _ => let n := blockLen full [] ts
           (k + n) :: blockEnds full fuel (k + n) (ts.drop n)

/-- the first block end that is at least `k` -/
def endFor (ends : List Nat) (k : Nat) : Option Nat := ends.find? fun e => k ≤ e

/-- how many pairs have been read after the block which ends at `e` was made: up to its last element; all, if it ends with the iterator -/
def readAt (ts : List Tok) (total e : Nat) : Nat :=
  match ts[e - 1]? with
  | some (.flush n) => n
  | some (.sig p) => if ts.length ≤ e then total else p + 1
  | none => total

/-- How many pairs have been read when the element at position `k` is processed (RS 273-295, _dir_shadow.py 110-167): it
arrives with the block of diffs that contains it; that block was made from blocks of signatures. `fullSig`, `fullDiff`:
when the buffers of the two iterators are full. -/
def readWhen (fullSig fullDiff : List Tok → Bool) (ts : List Tok) (total k : Nat) : Nat :=
  match (endFor (blockEnds fullDiff ts.length 0 ts) (k + 1)).bind fun e => endFor (blockEnds fullSig ts.length 0 ts) e with
  | some e => readAt ts total e
  | none => total

/-- singletons/consts.py 47 `PIPELINE_MAX_LENGTH` -/
def pipelineMax : Nat := 500

section
variable {α A C S H Δ L : Type} [LinearOrder α] [DecidableEq A] [DecidableEq S] [DecidableEq H]

/-- the signatures of a remote session, with the flush markers -/
def sessionTokens (o : Ops A C H Δ L) (c : Ctx α A C S H Δ) (threshold : Nat) : List Tok :=
  tokens threshold 0 0 (c.pairs.map fun p => changedPair o p.2.1 p.2.2)

/-- the position of an index among the pairs -/
def posOf (c : Ctx α A C S H Δ) (i : List α) : Nat := c.pairs.findIdx fun p => p.1 = i

/-- a local session (no blocks, all iterators are generators): the diff is processed as soon as the pair has been read -/
def localSched (c : Ctx α A C S H Δ) (i : List α) : Nat := posOf c i + 1

/-- a remote session -/
def remoteSched (o : Ops A C H Δ L) (c : Ctx α A C S H Δ) (threshold : Nat) (fullSig fullDiff : List Tok → Bool) (i : List α) : Nat :=
  readWhen fullSig fullDiff (sessionTokens o c threshold) c.pairs.length
    ((sessionTokens o c threshold).idxOf (.sig (posOf c i)))

/-- how many pairs have been read when the signature of `i` is looked at by the source (_dir_shadow.py 110-167): its block has
arrived -/
def sigSched (o : Ops A C H Δ L) (c : Ctx α A C S H Δ) (threshold : Nat) (fullSig : List Tok → Bool) (i : List α) : Nat :=
  remoteSched o c threshold fullSig (fun _ => true) i

end

/-! ### The cache at the source -/

section
variable {α X : Type} [LinearOrder α]

/-- rorpiter.py 247-265 `CacheIndexable` -/
structure SrcCache (α X : Type) where
  size : Nat
  items : List (List α × X)

/-- rorpiter.py 267-285 `__next__` -/
def SrcCache.next (s : SrcCache α X) (x : List α × X) : SrcCache α X :=
  if (s.items ++ [x]).length > s.size then { s with items := (s.items ++ [x]).drop 1 } else { s with items := s.items ++ [x] }

/-- rorpiter.py 290-300 `get`; outer `none`: the assertion, or an empty cache -/
def SrcCache.get (s : SrcCache α X) (i : List α) : Option (Option X) :=
  match s.items.find? fun x => x.1 = i with
  | some x => some (some x.2)
  | none =>
    match s.items with
    | [] => none
    | e :: _ => if e.1 ≤ i then some none else none

/-- the cache after `xs` have been read -/
def SrcCache.reads (size : Nat) (xs : List (List α × X)) : SrcCache α X := xs.foldl SrcCache.next ⟨size, []⟩

end

end Verif.Cache
