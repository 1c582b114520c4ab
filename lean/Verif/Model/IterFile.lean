import Verif.Model.Pipe
/-
Model of `src/rdiff_backup/iterfile.py`: how an iterator of objects and RORPaths with attached files is made into blocks of bytes
(`MiscIterToFile` 317-433, on one side of a connection) and back into an iterator (`FileToMiscIter` 436-508, `IterVirtualFile` 108-195).

`O`: objects, `R`: index and data of RORPaths, `E`: exceptions, `H`: what `close` of a file returns (a report with a checksum). `pickle` is a parameter.

Not modelled: `FileWrappingIter` and `IterWrappingFile` (79-106, 197-298), which are only used by the tests; `MiscIterToFile.read` with a length, which is
not used; files which are elements of the iterator by themselves.
-/
namespace Verif.IterFile
open Verif.Pipe
variable {O R E H : Type}

/-- the `pickle` functions for the four kinds of pickled records (iterfile.py 38-72, 407-434, 486-508); contract: loads inverts dumps -/
structure Pickles (O R E H : Type) where
  obj : Pickle O
  rorp : Pickle (R × Bool)
  exc : Pickle E
  close : Pickle H

/-- what is written: a letter, the length in seven bytes and the data -/
inductive Rec (O R E H : Type) where
  | obj (o : O)
  | rorp (r : R) (hasFile : Bool)
  | file (b : Bytes)
  | cont (b : Bytes)
  | close (h : H)
  | exc (e : E)
  | fin
  deriving DecidableEq

/-- iterfile.py 38-72, 197-209, 486-508: the first byte of a record -/
def Rec.letter : Rec O R E H → UInt8
  | .obj _ => 111
  | .rorp _ _ => 114
  | .file _ => 102
  | .cont _ => 99
  | .close _ => 104
  | .exc _ => 101
  | .fin => 122

/-- iterfile.py 233-255, 407-434: the bytes after the length -/
def Rec.data (P : Pickles O R E H) : Rec O R E H → Bytes
  | .obj o => P.obj.dumps o
  | .rorp r f => P.rorp.dumps (r, f)
  | .file b => b
  | .cont b => b
  | .close h => P.close.dumps h
  | .exc e => P.exc.dumps e
  | .fin => []

/-- `none`: OverflowError -/
def enc (P : Pickles O R E H) (r : Rec O R E H) : Option Bytes := (i2b (r.data P).length 7).map fun n => r.letter :: n ++ r.data P

/-- 500-508, and what is done with the type -/
def dec (P : Pickles O R E H) (letter : UInt8) (data : Bytes) : Option (Rec O R E H) :=
  if letter = 111 then (P.obj.loads data).map .obj
  else if letter = 101 then (P.exc.loads data).map .exc
  else if letter = 114 then (P.rorp.loads data).map fun x => .rorp x.1 x.2
  else if letter = 104 then (P.close.loads data).map .close
  else if letter = 102 then some (.file data)
  else if letter = 99 then some (.cont data)
  else if letter = 122 then some .fin
  else none

/-- A file as seen by its reader: the blocks `read(BLOCKSIZE)` returns one after the other until it returns nothing (or fails), and what happens then: an
exception, or `close` returns something. -/
structure Src (E H : Type) where
  blocks : List Bytes
  ending : E ⊕ H

/-- the elements of the iterator; `flushRepeat o`: `MiscIterFlushRepeat`, the class which is sent as an object -/
inductive Elem (O R E H : Type) where
  | obj (o : O)
  | rorp (r : R) (f : Option (Src E H))
  | flush
  | flushRepeat (o : O)

/-- `MiscIterToFile`: 334-345 -/
structure Writer (O R E H : Type) where
  iter : List (Elem O R E H)
  inFile : Option (Src E H)
  next : Option (Src E H)
  buf : Bytes
  rorps : Nat

variable (P : Pickles O R E H)

/-- records one after the other in the buffer (iterfile.py 376-405) -/
def encAll : List (Rec O R E H) → Option Bytes
  | [] => some []
  | r :: rs => (enc P r).bind fun b => (encAll rs).map (b ++ ·)

/-- iterfile.py 376-405: `array_buf.frombytes` for some records -/
def Writer.emit (w : Writer O R E H) (rs : List (Rec O R E H)) : Option (Writer O R E H) := (encAll P rs).map fun b => { w with buf := w.buf ++ b }

/-- 257-280 `_add_from_file` -/
def addFromFile (w : Writer O R E H) (f : Src E H) (pre : Bytes → Rec O R E H) : Option (Writer O R E H) :=
  match f.blocks, f.ending with
  | b :: bs, _ => { w with inFile := some { f with blocks := bs } }.emit P [pre b]
  | [], .inl e => { w with inFile := none }.emit P [.exc e]
  | [], .inr h => { w with inFile := none }.emit P [pre [], .close h]

/-- 376-405 `_add_to_buffer`: the result, and the state; 407-428 `_add_misc_object`, `_add_rorp`; 430-433 `_add_final` -/
def addToBuffer (w : Writer O R E H) : Option (Bool × Writer O R E H) :=
  match w.inFile with
  | some f => (addFromFile P w f .cont).map fun w' => (true, if w'.inFile.isNone then { w' with rorps := w'.rorps + 1 } else w')
  | none =>
    match w.next with
    | some f => (addFromFile P { w with next := none } f .file).map (true, ·)
    | none =>
      match w.iter with
      | [] => (w.emit P [.fin]).map (false, ·)
      | .obj o :: es => ({ w with iter := es }.emit P [.obj o]).map (true, ·)
      | .rorp r none :: es => ({ w with iter := es, rorps := w.rorps + 1 }.emit P [.rorp r false]).map (true, ·)
      | .rorp r (some f) :: es => ({ w with iter := es, next := some f }.emit P [.rorp r true]).map (true, ·)
      | .flush :: es => some (false, { w with iter := es })
      | .flushRepeat o :: es => ({ w with iter := es }.emit P [.obj o]).map (false, ·)

/-- not in the code: how many blocks a file still gives (termination measure) -/
def Src.work (f : Src E H) : Nat := f.blocks.length + 1
/-- not in the code: how many records an element still gives (termination measure) -/
def Elem.work : Elem O R E H → Nat
  | .rorp _ (some f) => f.work + 1
  | _ => 1
/-- how often something can still be added -/
def Writer.work (w : Writer O R E H) : Nat := (w.inFile.map Src.work).getD 0 + (w.next.map Src.work).getD 0 + (w.iter.map Elem.work).sum

theorem emit_work {w w' : Writer O R E H} {rs : List (Rec O R E H)} (h : w.emit P rs = some w') : w'.work = w.work := by
  obtain ⟨b, _, rfl⟩ := Option.map_eq_some_iff.1 h
  rfl

theorem addToBuffer_work {w w' : Writer O R E H} (h : addToBuffer P w = some (true, w')) : w'.work < w.work := by
  simp only [addToBuffer] at h
  split at h
  · rename_i f hf
    obtain ⟨w1, h1, h2⟩ := Option.map_eq_some_iff.1 h
    have hw : w'.work = w1.work := by
      simp only [Prod.mk.injEq, true_and] at h2
      rw [← h2]; split <;> rfl
    rw [hw]
    simp only [addFromFile] at h1
    split at h1 <;> rw [emit_work P h1] <;> simp_all [Writer.work, Src.work] <;> omega
  · rename_i hf
    split at h
    · rename_i f hn
      obtain ⟨w1, h1, h2⟩ := Option.map_eq_some_iff.1 h
      have hw : w1 = w' := by simpa using h2
      subst hw
      simp only [addFromFile] at h1
      split at h1 <;> rw [emit_work P h1] <;> simp_all [Writer.work, Src.work] <;> omega
    · rename_i hn
      split at h
      · obtain ⟨w1, h1, h2⟩ := Option.map_eq_some_iff.1 h; simp at h2
      · obtain ⟨w1, h1, h2⟩ := Option.map_eq_some_iff.1 h
        have hw : w1 = w' := by simpa using h2
        subst hw; rw [emit_work P h1]; simp_all [Writer.work, Elem.work]
      · obtain ⟨w1, h1, h2⟩ := Option.map_eq_some_iff.1 h
        have hw : w1 = w' := by simpa using h2
        subst hw; rw [emit_work P h1]; simp_all [Writer.work, Elem.work]
      · obtain ⟨w1, h1, h2⟩ := Option.map_eq_some_iff.1 h
        have hw : w1 = w' := by simpa using h2
        subst hw; rw [emit_work P h1]; simp_all [Writer.work, Elem.work]
      · simp at h
      · obtain ⟨w1, h1, h2⟩ := Option.map_eq_some_iff.1 h; simp at h2

/-- 355-360: the loop of `read` -/
def fill (maxBytes maxRorps : Nat) (w : Writer O R E H) : Option (Writer O R E H) :=
  if w.buf.length < maxBytes ∧ w.rorps < maxRorps then
    match h : addToBuffer P w with
    | none => none
    | some (false, w') => some w'
    | some (true, w') => fill maxBytes maxRorps w'
  else some w
termination_by w.work
decreasing_by exact addToBuffer_work P h

/-- 347-365 `read()` without a length -/
def readBlock (maxBytes maxRorps : Nat) (w : Writer O R E H) : Option (Bytes × Writer O R E H) :=
  (fill P maxBytes maxRorps w).map fun w' => (w'.buf, { w' with buf := [], rorps := 0 })

/-! ### the other side -/

/-- `IterVirtualFile`: `str`: the buffer has become the (text) string "" (close, 157); `closeVal`: `close_value`, if it has been set -/
structure VFile (H : Type) where
  buffer : Bytes
  str : Bool
  closed : Bool
  closeVal : Option H
  deriving DecidableEq

/-- `FileToMiscIter` with the writer it gets its blocks from; `inFile`: `currently_in_file`; `vf`: the file returned last -/
structure Reader (O R E H : Type) where
  buf : Bytes
  src : Writer O R E H
  inFile : Bool
  vf : VFile H

/-- exceptions: the one which was transferred, and Python's for various errors; `fuel`: more passes through a loop than allowed for -/
inductive Err (E : Type) where
  | raised (e : E)
  | type
  | value
  | attribute
  | assertion
  | overflow
  | fuel
  deriving DecidableEq

/-- a result or exception, and the state afterwards -/
abbrev Res (O R E H : Type) (α : Type) := Except (Err E) α × Reader O R E H

variable (maxBytes maxRorps : Nat)

/-- 497-508 `_get`, of data which are there: -/
def takeRec (s : Reader O R E H) : Res O R E H (Option (Rec O R E H)) :=
  if s.buf = [] then (.ok none, s)
  else if s.buf.length < 8 then (.error .assertion, s)
  else
    let length := b2i ((s.buf.drop 1).take 7)
    match dec P (s.buf.headD 0) ((s.buf.drop 8).take length) with
    | some r => (.ok (some r), { s with buf := s.buf.drop (8 + length) })
    | none => (.error .value, { s with buf := s.buf.drop (8 + length) })

/-- 486-508 `_get` -/
def getRec (s : Reader O R E H) : Res O R E H (Option (Rec O R E H)) :=
  if s.buf = [] then
    match readBlock P maxBytes maxRorps s.src with
    | none => (.error .overflow, s)
    | some (b, w) => takeRec P { s with buf := b, src := w }
  else takeRec P s

/-- 182-195 `_set_close_val` -/
def setCloseVal (s : Reader O R E H) : Res O R E H Unit :=
  if !s.inFile then (.error .assertion, s)
  else
    match getRec P maxBytes maxRorps { s with inFile := false } with
    | (.ok (some (.close h)), s') => (.ok (), { s' with vf := { s'.vf with closeVal := some h } })
    | (.ok _, s') => (.error .value, s')
    | (.error e, s') => (.error e, s')

/-- 161-180 `_add_to_buffer` of a file -/
def addVf (s : Reader O R E H) : Res O R E H Bool :=
  if !s.inFile then (.error .assertion, s)
  else
    match getRec P maxBytes maxRorps s with
    | (.ok (some (.exc e)), s') => (.error (.raised e), { s' with inFile := false })
    | (.ok (some (.cont b)), s') =>
      if b ≠ [] then
        if s'.vf.str then (.error .type, s') else (.ok true, { s' with vf := { s'.vf with buffer := s'.vf.buffer ++ b } })
      else
        match setCloseVal P maxBytes maxRorps s' with
        | (.ok (), s'') => (.ok false, s'')
        | (.error e, s'') => (.error e, s'')
    | (.ok _, s') => (.error .value, s')
    | (.error e, s') => (.error e, s')

/-- 135-144: the loops of `read`; `length = none`: -1 -/
def fillVf (length : Option Nat) : Nat → Reader O R E H → Res O R E H Unit
  | 0, s => (.error .fuel, s)
  | n + 1, s =>
    if length.all (s.vf.buffer.length ≤ ·) then
      match addVf P maxBytes maxRorps s with
      | (.ok true, s') => fillVf length n s'
      | (.ok false, s') => (.ok (), s')
      | (.error e, s') => (.error e, s')
    else (.ok (), s)

/-- 132-151 `read`; when the file has been read already, `real_len` is -1 for `length` -1 (146), so that `buffer[:-1]` is returned -/
def readVf (fuel : Nat) (length : Option Nat) (s : Reader O R E H) : Res O R E H Bytes :=
  if s.vf.closed then (.error .assertion, s)
  else
    let r := if s.inFile then fillVf P maxBytes maxRorps length fuel s else (.ok (), s)
    match r with
    | (.error e, s') => (.error e, s')
    | (.ok (), s') =>
      let n := match length with
        | some n => min n s'.vf.buffer.length
        | none => if s.inFile then s'.vf.buffer.length else s'.vf.buffer.length - 1
      (.ok (s'.vf.buffer.take n), { s' with vf := { s'.vf with buffer := s'.vf.buffer.drop n } })

/-- 155-157: the loop of `close` -/
def closeLoop : Nat → Reader O R E H → Res O R E H Unit
  | 0, s => (.error .fuel, s)
  | n + 1, s =>
    if s.inFile then
      match addVf P maxBytes maxRorps s with
      | (.ok _, s') => closeLoop n { s' with vf := { s'.vf with buffer := [], str := true } }
      | (.error e, s') => (.error e, s')
    else (.ok (), s)

/-- 153-159 `close` -/
def closeVf (fuel : Nat) (s : Reader O R E H) : Res O R E H H :=
  match closeLoop P maxBytes maxRorps fuel s with
  | (.error e, s') => (.error e, s')
  | (.ok (), s') =>
    let s'' := { s' with vf := { s'.vf with closed := true } }
    match s''.vf.closeVal with
    | some h => (.ok h, s'')
    | none => (.error .attribute, s'')

/-- what the iterator returns; `error`: `ErrorFile` (511-526) -/
inductive Item (O R E : Type) where
  | obj (o : O)
  | rorp (r : R)
  | rorpFile (r : R)
  | rorpError (r : R) (e : E)
  | stop
  deriving DecidableEq

/-- 450-452: until something is there -/
def waitRec : Nat → Reader O R E H → Res O R E H (Rec O R E H)
  | 0, s => (.error .fuel, s)
  | n + 1, s =>
    match getRec P maxBytes maxRorps s with
    | (.ok none, s') => waitRec n s'
    | (.ok (some r), s') => (.ok r, s')
    | (.error e, s') => (.error e, s')

/-- 471-484 `_get_file`, 116-130 `IterVirtualFile.__init__` -/
def getFile (r : R) (s : Reader O R E H) : Res O R E H (Item O R E) :=
  match getRec P maxBytes maxRorps s with
  | (.ok (some (.file b)), s') =>
    let s'' := { s' with inFile := true, vf := ⟨b, false, false, none⟩ }
    if b ≠ [] then (.ok (.rorpFile r), s'')
    else
      match setCloseVal P maxBytes maxRorps s'' with
      | (.ok (), s3) => (.ok (.rorpFile r), s3)
      | (.error e, s3) => (.error e, s3)
  | (.ok (some (.exc e)), s') => (.ok (.rorpError r e), s')
  | (.ok _, s') => (.error .value, s')
  | (.error e, s') => (.error e, s')

/-- 450-460 `__next__`, after the previous file has been closed -/
def nextItem (fuel : Nat) (s : Reader O R E H) : Res O R E H (Item O R E) :=
  match waitRec P maxBytes maxRorps fuel s with
  | (.ok .fin, s') => (.ok .stop, s')
  | (.ok (.rorp r hasFile), s') => if hasFile then getFile P maxBytes maxRorps r s' else (.ok (.rorp r), s')
  | (.ok (.obj o), s') => (.ok (.obj o), s')
  | (.ok _, s') => (.error .value, s')
  | (.error e, s') => (.error e, s')

/-- 446-460 `__next__` -/
def next (fuel : Nat) (s : Reader O R E H) : Res O R E H (Item O R E) :=
  if s.inFile then
    match closeVf P maxBytes maxRorps fuel s with
    | (.ok _, s') => nextItem P maxBytes maxRorps fuel s'
    | (.error e, s') => (.error e, s')
  else nextItem P maxBytes maxRorps fuel s

end Verif.IterFile
