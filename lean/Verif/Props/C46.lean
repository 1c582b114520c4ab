import Verif.Proof.Security
/-
C46: what a restricted server does, and what it refuses.

Missing from the full claim, and false (see the witnesses below): paths which come through `rpath.get_rpath_data`, or in the index of an rpath that is
absolute, or in iterators, are not checked, and a server restricted to a part of a repository lets one in to the whole of it.
-/
namespace Verif.C46
open Verif.Quoting Verif.Glob Verif.Security Verif.Spec.Security

/-! ### functions -/

theorem mem_ite {f : String} {p : Prop} [Decidable p] {l : List String} (h : f ∈ (if p then l else [])) : f ∈ l := by
  split at h
  · exact h
  · cases h

theorem mem_allowed {f : String} {c : Class} {l : Level} (h : f ∈ allowed c l) :
    f ∈ minimalRequests ++ commonRequests ++ readRequests ++ updateRequests ++ writeRequests ++ serverRequests := by
  simp only [allowed, List.mem_append] at h ⊢
  rcases h with ((((h | h) | h) | h) | h) | h
  · exact .inl (.inl (.inl (.inl (.inl h))))
  · exact .inl (.inl (.inl (.inl (.inr (mem_ite h)))))
  · exact .inl (.inl (.inl (.inr (mem_ite h))))
  · exact .inl (.inl (.inr (mem_ite h)))
  · exact .inl (.inr (mem_ite h))
  · exact .inr (mem_ite h)

/-- Every function executed belongs to one of the known modules. Hence no builtin function of Python (`open`, `eval`, ...), nor `os`. -/
theorem module_known {s : Server} {rq : Request} (hl : s.level ≠ .override) (h : vetRequest s rq = true) :
    moduleOf rq.fn ∈ modules.map String.toList := by
  rw [vetRequest, if_neg hl, Bool.and_eq_true] at h
  have h := h.2
  rw [Bool.or_eq_true, Bool.and_eq_true] at h
  rcases h with h | ⟨h, -⟩
  · have h : rq.fn ∈ allowed s.cls s.level := by simpa using h
    have H : ∀ f ∈ minimalRequests ++ commonRequests ++ readRequests ++ updateRequests ++ writeRequests ++ serverRequests,
        moduleOf f ∈ modules.map String.toList := by decide +kernel
    exact H _ (mem_allowed h)
  · have h : rq.fn ∈ globalsRequests := by simpa using h
    have H : ∀ f ∈ globalsRequests, moduleOf f ∈ modules.map String.toList := by decide +kernel
    exact H _ h

example : vetRequest ⟨.readWrite, .server, none, none⟩ ⟨"_repo_shadow.RepoShadow.regress", []⟩ = true ∧
    vetRequest ⟨.readWrite, .server, none, none⟩ ⟨"os.unlink", [.bytes [47]]⟩ = false ∧
    vetRequest ⟨.readWrite, .server, none, none⟩ ⟨"open", [.bytes [47], .str "w"]⟩ = false := by decide +kernel

theorem not_mem_refused {s : Server} {rq : Request} (hl : s.level ≠ .override) (h1 : rq.fn ∉ allowed s.cls s.level) (h2 : rq.fn ∉ globalsRequests) :
    vetRequest s rq = false := by
  rw [vetRequest, if_neg hl]
  simp [h1, h2]

/-- A server started with `--restrict-mode read-only` (or a client that reads) executes nothing which adds to or takes from a repository, or writes a directory. -/
theorem readonly_refuses {s : Server} {rq : Request} (hl : s.level = .readOnly) (h : rq.fn ∈ destroying ++ updating) : vetRequest s rq = false := by
  refine not_mem_refused (by simp [hl]) ?_ ?_
  · rw [hl]
    have H : ∀ c, ∀ f ∈ destroying ++ updating, f ∉ allowed c .readOnly := by
      intro c
      cases c <;> decide +kernel
    exact H _ _ h
  · have H : ∀ f ∈ destroying ++ updating, f ∉ globalsRequests := by decide +kernel
    exact H _ h

/-- A server started with `--restrict-mode update-only` executes nothing that takes something from the repository's history, or that reveals it. -/
theorem updateonly_refuses {s : Server} {rq : Request} (hl : s.level = .updateOnly) (h : rq.fn ∈ destroying ++ revealing) : vetRequest s rq = false := by
  refine not_mem_refused (by simp [hl]) ?_ ?_
  · rw [hl]
    have H : ∀ c, ∀ f ∈ destroying ++ revealing, f ∉ allowed c .updateOnly := by
      intro c
      cases c <;> decide +kernel
    exact H _ _ h
  · have H : ∀ f ∈ destroying ++ revealing, f ∉ globalsRequests := by decide +kernel
    exact H _ h

/-- The client which has both ends local, or both remote, executes none of those. -/
theorem minimal_refuses {s : Server} {rq : Request} (hl : s.level = .minimal) (h : rq.fn ∈ destroying ++ updating ++ revealing) : vetRequest s rq = false := by
  refine not_mem_refused (by simp [hl]) ?_ ?_
  · rw [hl]
    have H : ∀ c, ∀ f ∈ destroying ++ updating ++ revealing, f ∉ allowed c .minimal := by
      intro c
      cases c <;> decide +kernel
    exact H _ _ h
  · have H : ∀ f ∈ destroying ++ updating ++ revealing, f ∉ globalsRequests := by decide +kernel
    exact H _ h

/-- Nobody can switch off, from the other end, that a server is a server. -/
theorem server_flag {s : Server} {rq : Request} (hl : s.level ≠ .override) (hf : rq.fn = "specifics.set") (ha : rq.args.head? = some (.str "server")) :
    vetRequest s rq = false := by
  rw [vetRequest, if_neg hl, Bool.and_eq_false_iff]
  right
  have h1 : rq.fn ∉ allowed s.cls s.level := by
    rw [hf]
    have H : ∀ c l, "specifics.set" ∉ allowed c l := by
      intro c l
      cases c <;> cases l <;> decide +kernel
    exact H _ _
  obtain ⟨r, hr⟩ := List.head?_eq_some_iff.mp ha
  simp [h1, globalOk, hr]

/-! ### what is needed is possible -/

/-- Does the restriction let the path through? -/
def Clean (cwd : List Bytes) (r p : Bytes) : Prop :=
  [46, 46] ∉ split p ∧ (r.head? = some 47 ↔ p.head? = some 47) ∧ p.take 2 ≠ [47, 47] ∧ Within cwd r p

theorem normalize_of_clean {p : Bytes} (h : p.take 2 ≠ [47, 47]) :
    normalize p = if p.head? = some 47 then 47 :: join (kept p) else if kept p = [] then [46] else join (kept p) := by
  rw [normalize, pathJoin_nil (fun c hc => kept_plain hc)]
  have hj : join (kept p) = [] ↔ kept p = [] := by
    constructor
    · intro e
      have := keep_split_join (p := p)
      rw [pathJoin_nil (fun c hc => kept_plain hc), e] at this
      exact this.symm
    · intro e; rw [e]; rfl
  split
  · next hp =>
    rw [if_neg]
    intro hu
    rw [isUnc, Bool.and_eq_true] at hu
    obtain ⟨q, rfl⟩ := List.head?_eq_some_iff.mp hp
    cases q with
    | nil => simp at hu
    | cons a q =>
      have ha : a = 47 := by simpa using hu.1
      exact h (by simp [ha])
  · by_cases hk : kept p = []
    · rw [if_pos (hj.mpr hk), if_pos hk]
    · rw [if_neg (fun e => hk (hj.mp e)), if_neg hk]

/-- A path within the restriction, both written without `..` and without a double slash at the beginning, is accepted; the restriction is either absolute, or
relative and not the current directory. -/
theorem within_accepted {cwd : List Bytes} {r p : Bytes} (hr : [46, 46] ∉ split r) (hr2 : r.take 2 ≠ [47, 47]) (hrd : r.head? = some 47 ∨ kept r ≠ [])
    (hp : Clean cwd r p) : vetPath (normalize r) p = true := by
  obtain ⟨h1, h2, h3, h4⟩ := hp
  rw [vetPath, if_neg (fun e => h1 ((up_normalize p).mp e))]
  split
  · rfl
  · next hroot =>
    rw [decide_eq_true_eq]
    suffices h : split (normalize r) <+: split (normalize p) from (List.prefix_iff_eq_take.mp h).symm
    have hk : kept r <+: kept p := by
      rw [Within, resolve_noup cwd hr, resolve_noup cwd h1] at h4
      by_cases ha : r.head? = some 47
      · rw [if_pos ha, if_pos (h2.mp ha)] at h4; simpa using h4
      · rw [if_neg ha, if_neg (fun e => ha (h2.mpr e))] at h4; exact (List.prefix_append_right_inj _).mp h4
    have hkr : kept r ≠ [] := by
      rcases hrd with ha | h
      · intro e
        apply hroot
        rw [normalize_of_clean hr2, if_pos ha, e]; rfl
      · exact h
    have hkp : kept p ≠ [] := by
      intro e
      rw [e] at hk
      exact hkr (List.prefix_nil.mp hk)
    rw [normalize_of_clean hr2, normalize_of_clean h3]
    by_cases ha : r.head? = some 47
    · rw [if_pos ha, if_pos (h2.mp ha), split_slash, split_slash, split_join (fun c hc => (kept_plain hc).2) hkr,
        split_join (fun c hc => (kept_plain hc).2) hkp, List.cons_prefix_cons]
      exact ⟨rfl, hk⟩
    · rw [if_neg ha, if_neg (fun e => ha (h2.mpr e)), if_neg hkr, if_neg hkp, split_join (fun c hc => (kept_plain hc).2) hkr,
        split_join (fun c hc => (kept_plain hc).2) hkp]
      exact hk

/-- `/srv/b` and `/srv/./b//x` -/
example : Clean [] [47, 115, 114, 118, 47, 98] [47, 115, 114, 118, 47, 46, 47, 98, 47, 47, 120] := by
  refine ⟨by decide, by decide, by decide, [[120]], by decide⟩

/-- Requests with good paths -/
def Good (cwd : List Bytes) (r : Bytes) (rq : Request) : Prop :=
  (∀ b i, .rpath true b i ∈ rq.args → Clean cwd r (pathJoin b i)) ∧
  (rq.fn ∈ ["_repo_shadow.RepoShadow.init", "_dir_shadow.ReadDirShadow.init", "_dir_shadow.WriteDirShadow.init"] →
    ∃ b i rest, rq.args = .rpath true b i :: rest)

theorem good_accepted {cwd : List Bytes} {s : Server} {r : Bytes} {rq : Request} (hr : [46, 46] ∉ split r) (hr2 : r.take 2 ≠ [47, 47])
    (hrd : r.head? = some 47 ∨ kept r ≠ []) (hs : s.restrict = some (normalize r)) (hg : Good cwd r rq) (hf : rq.fn ∈ allowed s.cls s.level)
    (hm : rq.fn ≠ "rpath.make_file_dict") : vetRequest s rq = true := by
  rw [vetRequest]
  split
  · rfl
  · rw [hs]
    have h1 : rq.args.all (vetArg (normalize r)) = true := by
      rw [List.all_eq_true]
      intro a ha
      match a, ha with
      | .rpath true b i, ha => exact within_accepted hr hr2 hrd (hg.1 b i ha)
      | .rpath false b i, ha => rfl
      | .bytes b, ha => rfl
      | .str b, ha => rfl
      | .other, ha => rfl
    have h2 : (if rq.fn ∈ fileRequests then vetFilename (normalize r) rq.args else true) = true := by
      split
      · next hfr =>
        obtain ⟨b, i, rest, e⟩ := hg.2 (by
          rcases List.mem_cons.mp hfr with h | h
          · exact absurd h hm
          · exact h)
        have := hg.1 b i (by rw [e]; exact List.mem_cons_self)
        rw [e]
        exact within_accepted hr hr2 hrd this
      · rfl
    simp only [h1, h2, hf]
    simp

/-- With `--restrict-mode update-only` a backup into the restricted directory is possible: everything that it calls is executed, if the paths are good. With
`read-only` a backup from it, and a restore out of it; with `read-write` all that, and a restore into it. -/
theorem mode_sufficient {cwd : List Bytes} {s : Server} {r : Bytes} {rq : Request} (hr : [46, 46] ∉ split r) (hr2 : r.take 2 ≠ [47, 47])
    (hrd : r.head? = some 47 ∨ kept r ≠ []) (hs : s.restrict = some (normalize r)) (hg : Good cwd r rq)
    (h : s.level = .updateOnly ∧ rq.fn ∈ backupRepo ∨ s.level = .readOnly ∧ rq.fn ∈ backupDir ++ restoreRepo ∨
      s.level = .readWrite ∧ rq.fn ∈ backupRepo ++ backupDir ++ restoreRepo ++ restoreDir) : vetRequest s rq = true := by
  have H1 : ∀ c, ∀ f ∈ backupRepo, f ∈ allowed c .updateOnly ∧ f ≠ "rpath.make_file_dict" := by intro c; cases c <;> decide +kernel
  have H2 : ∀ c, ∀ f ∈ backupDir ++ restoreRepo, f ∈ allowed c .readOnly ∧ f ≠ "rpath.make_file_dict" := by intro c; cases c <;> decide +kernel
  have H3 : ∀ c, ∀ f ∈ backupRepo ++ backupDir ++ restoreRepo ++ restoreDir, f ∈ allowed c .readWrite ∧ f ≠ "rpath.make_file_dict" := by
    intro c; cases c <;> decide +kernel
  rcases h with ⟨hl, hf⟩ | ⟨hl, hf⟩ | ⟨hl, hf⟩
  · exact good_accepted hr hr2 hrd hs hg (hl ▸ (H1 s.cls _ hf).1) (H1 s.cls _ hf).2
  · exact good_accepted hr hr2 hrd hs hg (hl ▸ (H2 s.cls _ hf).1) (H2 s.cls _ hf).2
  · exact good_accepted hr hr2 hrd hs hg (hl ▸ (H3 s.cls _ hf).1) (H3 s.cls _ hf).2

/-- Whatever the mode, the connection can be set up. -/
theorem connecting_accepted {s : Server} (hc : s.cls = .server) {rq : Request} (h : rq ∈ connecting) : vetRequest s rq = true := by
  obtain ⟨l, c, r, b⟩ := s
  subst hc
  have h1 : ∀ rq ∈ connecting, (∀ r, rq.args.all (vetArg r) = true) ∧ rq.fn ∉ fileRequests := by
    intro rq h
    simp only [connecting, List.mem_cons, List.not_mem_nil, or_false] at h
    rcases h with rfl | rfl | rfl | rfl | rfl | rfl | rfl <;> exact ⟨fun r => rfl, by decide +kernel⟩
  have h2 : ∀ l, ∀ rq ∈ connecting, (decide (rq.fn ∈ allowed .server l) || decide (rq.fn ∈ globalsRequests) && globalOk rq.args) = true := by
    intro l
    cases l <;> decide +kernel
  rw [vetRequest]
  split
  · rfl
  · simp only [h2 l rq h, Bool.and_true]
    cases r with
    | none => rfl
    | some r => simp only [(h1 rq h).1, if_neg (h1 rq h).2]; rfl

/-! ### paths -/

/-- If a server restricted to `r` executes a request, then the path of each rpath among its arguments, if it is one of the server, is `r` or in `r`; and so is
the path given to the functions that make a location. This is true for every current directory. -/
theorem paths_within_partial {cwd : List Bytes} {s : Server} {r : Bytes} {rq : Request} (hl : s.level ≠ .override) (hs : s.restrict = some (normalize r))
    (h : vetRequest s rq = true) :
    (∀ b i, .rpath true b i ∈ rq.args → Within cwd r (pathJoin b i)) ∧
    (rq.fn ∈ ["_repo_shadow.RepoShadow.init", "_dir_shadow.ReadDirShadow.init", "_dir_shadow.WriteDirShadow.init"] →
      ∃ a p, rq.args.head? = some a ∧ fileName a = some p ∧ Within cwd r p) := by
  rw [vetRequest, if_neg hl, hs] at h
  simp only [Bool.and_eq_true, List.all_eq_true] at h
  constructor
  · intro b i hm
    exact vetPath_within (h.1.1 _ hm)
  · intro hf
    have h2 := h.1.2
    rw [if_pos (show rq.fn ∈ fileRequests from List.mem_cons_of_mem _ hf)] at h2
    cases ha : rq.args with
    | nil => rw [ha] at h2; cases h2
    | cons a rest =>
      rw [ha, vetFilename] at h2
      cases hn : fileName a with
      | none => rw [hn] at h2; cases h2
      | some p =>
        rw [hn] at h2
        exact ⟨a, p, rfl, hn, vetPath_within h2⟩

/-- `/srv/b`; in it `/srv//b/x`, but not `/srv/bc` nor `/srv/b/../x` -/
example : let s : Server := ⟨.readWrite, .server, some (normalize [47, 115, 114, 118, 47, 98]), none⟩
    vetRequest s ⟨"_repo_shadow.RepoShadow.init", [.rpath true [47, 115, 114, 118, 47, 47, 98] [[120]], .other, .other, .other]⟩ = true ∧
    vetRequest s ⟨"_repo_shadow.RepoShadow.init", [.rpath true [47, 115, 114, 118, 47, 98, 99] [], .other, .other, .other]⟩ = false ∧
    vetRequest s ⟨"_repo_shadow.RepoShadow.init", [.rpath true [47, 115, 114, 118, 47, 98] [[46, 46], [120]], .other, .other, .other]⟩ = false := by
  decide +kernel

/-! ### sequences of requests -/

/-- all paths that come as arguments of the server's own connection have plain indices -/
def PlainArgs (rq : Request) : Prop := ∀ l b i, .rpath l b i ∈ rq.args → ∀ c ∈ i, Plain c

/-- The restriction may change, but in any sequence of requests it always stays within the first one, and so do all paths of executed requests: as long as no
directory above the first restriction is a repository, and none is called `rdiff-backup-data`. -/
theorem run_within_partial {cwd : List Bytes} {r : Bytes} {s s' : Server} {es : List Event} (hl : s.level ≠ .override) (hs : s.restrict = some (normalize r))
    (hb : s.base = none) (hdata : dataName ∉ resolve cwd r) (hrun : Run s es s')
    (hes : ∀ e ∈ es, PlainArgs e.request ∧ ∀ p, e.world.isRepo p = true → Within cwd p r → Within cwd r p) :
    ∀ e ∈ es, e.executed = true →
      (∀ b i, .rpath true b i ∈ e.request.args → Within cwd r (pathJoin b i)) ∧
      (e.request.fn ∈ ["_repo_shadow.RepoShadow.init", "_dir_shadow.ReadDirShadow.init", "_dir_shadow.WriteDirShadow.init"] →
        ∃ a p, e.request.args.head? = some a ∧ fileName a = some p ∧ Within cwd r p) := by
  -- the invariant
  suffices H : ∀ q, s.restrict = some (normalize q) → Within cwd r q → (∀ b i, s.base = some (b, i) → Within cwd r (pathJoin b i)) →
      ∀ e ∈ es, e.executed = true →
      (∀ b i, .rpath true b i ∈ e.request.args → Within cwd r (pathJoin b i)) ∧
      (e.request.fn ∈ ["_repo_shadow.RepoShadow.init", "_dir_shadow.ReadDirShadow.init", "_dir_shadow.WriteDirShadow.init"] →
        ∃ a p, e.request.args.head? = some a ∧ fileName a = some p ∧ Within cwd r p) by
    exact H r hs List.prefix_rfl (by rw [hb]; intro b i h; cases h)
  clear hs hb
  induction hrun with
  | nil => intro q _ _ _ e he; cases he
  | @cons s s1 s2 e es ha hrun ih =>
    intro q hq hin hbase e' he'
    have hstep : s1.level ≠ .override ∧ ∃ q', s1.restrict = some (normalize q') ∧ Within cwd r q' ∧
        ∀ b i, s1.base = some (b, i) → Within cwd r (pathJoin b i) := by
      generalize e.executed = x at ha
      cases ha with
      | refused _ => exact ⟨hl, q, hq, hin, hbase⟩
      | executed hv heff =>
        obtain ⟨hplain, hw⟩ := hes e List.mem_cons_self
        have path_ok : ∀ b i rest, e.request.args = .rpath true b i :: rest →
            [46, 46] ∉ split (pathJoin b i) ∧ Within cwd r (pathJoin b i) := by
          intro b i rest ea
          refine ⟨?_, hin.trans ((paths_within_partial hl hq hv).1 b i (by rw [ea]; exact List.mem_cons_self))⟩
          rw [vetRequest, if_neg hl, hq] at hv
          simp only [Bool.and_eq_true, List.all_eq_true] at hv
          exact (vetPath_cases (show vetPath (normalize q) (pathJoin b i) = true from hv.1.1 (.rpath true b i) (by rw [ea]; exact List.mem_cons_self))).1
        cases heff with
        | same => exact ⟨hl, q, hq, hin, hbase⟩
        | init isLocal b i rest hf ea =>
          refine ⟨hl, q, hq, hin, ?_⟩
          intro b' i' hb'
          cases isLocal with
          | false => cases hb'
          | true =>
            cases hb'
            exact (path_ok b i rest ea).2
        | initSub isLocal b i rest hf ea =>
          refine ⟨hl, q, hq, hin, ?_⟩
          intro b' i' hb'
          cases isLocal with
          | false => cases hb'
          | true =>
            have hp := path_ok b i rest ea
            have hi : ∀ c ∈ i, Plain c := hplain true b i (by rw [ea]; exact List.mem_cons_self)
            have := repositoryDir_within (rp := (b, i)) hw hdata hi hp.1 hp.2
            have hb' : some (repositoryDir e.world (b, i)) = some (b', i') := hb'
            rw [Option.some.inj hb'] at this
            exact this
        | setup b i hf hb0 => exact ⟨hl, pathJoin b i, rfl, hbase b i hb0, hbase⟩
    rcases List.mem_cons.mp he' with rfl | he'
    · intro hx
      have hv : vetRequest s e'.request = true := by
        rw [hx] at ha
        cases ha with
        | executed hv _ => exact hv
      have := paths_within_partial (cwd := cwd) hl hq hv
      refine ⟨fun b i hm => hin.trans (this.1 b i hm), fun hf => ?_⟩
      obtain ⟨a, p, h1, h2, h3⟩ := this.2 hf
      exact ⟨a, p, h1, h2, hin.trans h3⟩
    · obtain ⟨hl1, q', h1, h2, h3⟩ := hstep
      exact ih hl1 (fun x hx => hes x (List.mem_cons_of_mem _ hx)) q' h1 h2 h3 e' he'

/-- The mode never changes. -/
theorem run_level {s s' : Server} {es : List Event} (hrun : Run s es s') : s'.level = s.level ∧ s'.cls = s.cls := by
  induction hrun with
  | nil => exact ⟨rfl, rfl⟩
  | @cons s s1 s2 e es ha _ ih =>
    have : s1.level = s.level ∧ s1.cls = s.cls := by
      generalize e.executed = x at ha
      cases ha with
      | refused _ => exact ⟨rfl, rfl⟩
      | executed _ heff => cases heff <;> exact ⟨rfl, rfl⟩
    exact ⟨ih.1.trans this.1, ih.2.trans this.2⟩

/-- Hence a server in mode `read-only` executes none of the functions that change something, whatever requests come; in mode `update-only` none that destroys. -/
theorem run_modes {s s' : Server} {es : List Event} (hrun : Run s es s') {e : Event} (he : e ∈ es) (hx : e.executed = true) :
    (s.level = .readOnly → e.request.fn ∉ destroying ++ updating) ∧ (s.level = .updateOnly → e.request.fn ∉ destroying ++ revealing) := by
  induction hrun with
  | nil => cases he
  | @cons s s1 s2 e1 es ha hrun ih =>
    rcases List.mem_cons.mp he with rfl | he
    · rw [hx] at ha
      cases ha with
      | executed hv _ =>
        constructor
        · intro hl hf
          rw [readonly_refuses hl hf] at hv; cases hv
        · intro hl hf
          rw [updateonly_refuses hl hf] at hv; cases hv
    · have := ih he
      rwa [(run_level (.cons (es := []) ha .nil)).1] at this

/-! ### a run -/

/-- the bytes of a string, for examples -/
def str (s : String) : Bytes := s.toUTF8.toList

/-- The data directory is called `rdiff-backup-data`; and after two slashes, what must be kept is a letter or digit. -/
theorem data_directory : dataName.map (fun c => Char.ofNat c.toNat) = "rdiff-backup-data".toList ∧
    ∀ n < 256, Security.isAlnum (UInt8.ofNat n) = "0123456789ABCDEFGHIJKLMNOPQRSTUVWXYZabcdefghijklmnopqrstuvwxyz".toList.contains (Char.ofNat n) := by decide +kernel

/-- `/srv/b` is a repository -/
def world : World := ⟨fun p => p = str "/srv/b" || p = str "/etc", fun _ => false⟩

theorem answer_initSub {w : World} {s s' : Server} {l : Bool} {b : Bytes} {i : List Bytes} {rest : List Arg}
    (hv : vetRequest s ⟨"_repo_shadow.RepoShadow.init", .rpath l b i :: rest⟩ = true)
    (h : s' = { s with base := if l then some (repositoryDir w (b, i)) else none }) :
    Answer w s ⟨"_repo_shadow.RepoShadow.init", .rpath l b i :: rest⟩ true s' := h ▸ .executed hv (.initSub l b i rest rfl rfl)

theorem answer_setup {w : World} {s s' : Server} {b : Bytes} {i : List Bytes} (hv : vetRequest s ⟨"_repo_shadow.RepoShadow.setup", []⟩ = true)
    (hb : s.base = some (b, i)) (h : s' = { s with restrict := some (normalize (pathJoin b i)) }) :
    Answer w s ⟨"_repo_shadow.RepoShadow.setup", []⟩ true s' := h ▸ .executed hv (.setup b i rfl hb)

/-- A restore of `/srv/b/x/y` from the server restricted to `/srv`: the restriction becomes the repository. -/
theorem run_example : Run ⟨.readOnly, .server, some (str "/srv"), none⟩
    [⟨world, ⟨"_repo_shadow.RepoShadow.init", [.rpath true (str "/srv/b/x/y") [], .other, .other, .other, .other]⟩, true⟩,
     ⟨world, ⟨"_repo_shadow.RepoShadow.setup", []⟩, true⟩,
     ⟨world, ⟨"_dir_shadow.ReadDirShadow.init", [.rpath true (str "/srv/c") []]⟩, false⟩]
    ⟨.readOnly, .server, some (str "/srv/b"), some (str "/srv/b", [])⟩ := by
  refine .cons (s' := ⟨.readOnly, .server, some (str "/srv"), some (str "/srv/b", [])⟩) (answer_initSub (by decide +kernel) (by decide +kernel)) ?_
  refine .cons (s' := ⟨.readOnly, .server, some (str "/srv/b"), some (str "/srv/b", [])⟩) (answer_setup (by decide +kernel) rfl (by decide +kernel)) ?_
  exact .cons (.refused (by decide +kernel)) .nil

example : dataName ∉ resolve [] (str "/srv") ∧ ∀ p, world.isRepo p = true → Within [] p (str "/srv") → Within [] (str "/srv") p := by
  refine ⟨by decide +kernel, ?_⟩
  intro p hp hw
  have : p = str "/srv/b" ∨ p = str "/etc" := by simpa [world] using hp
  rcases this with rfl | rfl
  · exact absurd hw (by rw [Within]; decide +kernel)
  · exact absurd hw (by rw [Within]; decide +kernel)

/-! ### the client -/

/-- During a backup from here to elsewhere the other end may only read here, and only in the source; during a backup from elsewhere, it may not take anything
from the repository. During a restore from a repository here it may only read; and when both are elsewhere, or both here, it may do neither. -/
theorem client_level {c : Class} {pairs : List (Bool × Bytes)} {tmp : Bytes} {s : Server} {lvl : Level} {restr : Option Bytes}
    (h : start c pairs lvl restr tmp = some s) :
    (c = .backup ∨ c = .restore → ∀ src dst, pairs = [(false, src), (true, dst)] → src ≠ [] → s.level = .readOnly ∧ s.restrict = some (normalize src)) ∧
    (c = .backup → ∀ src dst, pairs = [(true, src), (false, dst)] → dst ≠ [] → s.level = .updateOnly ∧ s.restrict = some (normalize dst)) ∧
    (c = .restore → ∀ src dst, pairs = [(true, src), (false, dst)] → dst ≠ [] → s.level = .readWrite ∧ s.restrict = some (normalize dst)) ∧
    (c = .backup ∨ c = .restore → ∀ x src dst, pairs = [(x, src), (x, dst)] → s.level = .minimal) ∧
    (c = .validate → s.level = .minimal) ∧
    (c = .server → s.level = lvl ∧ ∀ r, restr = some r → r ≠ [] → s.restrict = some (normalize r)) := by
  rw [start] at h
  obtain ⟨x, hx, rfl⟩ := Option.map_eq_some_iff.mp h
  refine ⟨?_, ?_, ?_, ?_, ?_, ?_⟩
  · rintro (rfl | rfl) src dst rfl hne
    · simp [setSecurityLevel] at hx
      subst hx; simp [hne]
    · simp [setSecurityLevel] at hx
      subst hx; simp [hne]
  · rintro rfl src dst rfl hne
    simp [setSecurityLevel] at hx
    subst hx; simp [hne]
  · rintro rfl src dst rfl hne
    simp [setSecurityLevel] at hx
    subst hx; simp [hne]
  · rintro (rfl | rfl) y src dst rfl
    · simp [setSecurityLevel] at hx
      subst hx; rfl
    · simp [setSecurityLevel] at hx
      subst hx; rfl
  · rintro rfl
    simp only [setSecurityLevel] at hx
    split at hx
    · cases hx
    · cases hx; rfl
  · rintro rfl
    simp only [setSecurityLevel] at hx
    cases hx
    exact ⟨rfl, fun r hr hne => by simp [hr, hne]⟩

example : (start .backup [(false, str "/home"), (true, str "/b")] .readWrite none (str "/tmp")).map (fun s => (s.level, s.restrict)) =
    some (.readOnly, some (str "/home")) := by decide +kernel

/-! ### what is not as it should be -/

/-- F47: the error count of a remote repository is never increased: the name in the list is misspelt. Whatever the restrictions. -/
theorem add_error_refused {s : Server} (hl : s.level ≠ .override) (args : List Arg) : vetRequest s ⟨"sstats.SessionStats.add_error_local", args⟩ = false := by
  refine not_mem_refused hl ?_ (show "sstats.SessionStats.add_error_local" ∉ globalsRequests by decide +kernel)
  have H : ∀ c l, "sstats.SessionStats.add_error_local" ∉ allowed c l := by
    intro c l
    cases c <;> cases l <;> decide +kernel
  exact H _ _

/-- F47: the same for the statistics of a remote repository, which are not in any list. -/
theorem get_statistics_refused {s : Server} (hl : s.level ≠ .override) (args : List Arg) :
    vetRequest s ⟨"_repo_shadow.RepoShadow.get_statistics", args⟩ = false := by
  refine not_mem_refused hl ?_ (show "_repo_shadow.RepoShadow.get_statistics" ∉ globalsRequests by decide +kernel)
  have H : ∀ c l, "_repo_shadow.RepoShadow.get_statistics" ∉ allowed c l := by
    intro c l
    cases c <;> cases l <;> decide +kernel
  exact H _ _

/-- F48: the metadata of any path can be asked for. -/
theorem rpath_data_unrestricted (r p : Bytes) (base : Option (Bytes × List Bytes)) :
    vetRequest ⟨.readOnly, .server, some r, base⟩ ⟨"rpath.get_rpath_data", [.bytes p, .bytes p, .other]⟩ = true := by
  have h1 : "rpath.get_rpath_data" ∉ fileRequests := by decide +kernel
  have h2 : "rpath.get_rpath_data" ∈ allowed .server .readOnly := by decide +kernel
  rw [vetRequest]
  simp [vetArg, h1, h2]

/-- F49: the base of an rpath with an absolute index is not checked; and with the search for the repository the restriction becomes that base. -/
theorem absolute_index_escapes : Run ⟨.readOnly, .server, some (str "/srv/b"), none⟩
    [⟨world, ⟨"_repo_shadow.RepoShadow.init", [.rpath true (str "/etc") [str "/srv/b/x"], .other, .other, .other, .other]⟩, true⟩,
     ⟨world, ⟨"_repo_shadow.RepoShadow.setup", []⟩, true⟩]
    ⟨.readOnly, .server, some (str "/etc"), some (str "/etc", [])⟩ := by
  refine .cons (s' := ⟨.readOnly, .server, some (str "/srv/b"), some (str "/etc", [])⟩) (answer_initSub (by decide +kernel) (by decide +kernel)) ?_
  refine .cons (s' := ⟨.readOnly, .server, some (str "/etc"), some (str "/etc", [])⟩) (answer_setup (by decide +kernel) rfl (by decide +kernel)) ?_
  exact .nil

/-- F50: a server restricted to a part of a repository lets the other end into all of it. -/
theorem enclosing_repository_escapes : Run ⟨.readOnly, .server, some (str "/srv/b/x"), none⟩
    [⟨world, ⟨"_repo_shadow.RepoShadow.init", [.rpath true (str "/srv/b/x") [], .other, .other, .other, .other]⟩, true⟩,
     ⟨world, ⟨"_repo_shadow.RepoShadow.setup", []⟩, true⟩,
     ⟨world, ⟨"_dir_shadow.ReadDirShadow.init", [.rpath true (str "/srv/b/private") []]⟩, true⟩]
    ⟨.readOnly, .server, some (str "/srv/b"), some (str "/srv/b", [])⟩ := by
  refine .cons (s' := ⟨.readOnly, .server, some (str "/srv/b/x"), some (str "/srv/b", [])⟩) (answer_initSub (by decide +kernel) (by decide +kernel)) ?_
  refine .cons (s' := ⟨.readOnly, .server, some (str "/srv/b"), some (str "/srv/b", [])⟩) (answer_setup (by decide +kernel) rfl (by decide +kernel)) ?_
  exact .cons (.executed (by decide +kernel) .same) .nil

/-- F51: a server restricted to the current directory, `--restrict-path .`, refuses all that is in it. -/
theorem current_directory_refused : vetPath (normalize (str ".")) (str "x") = false ∧ Within [] (str ".") (str "x") := by
  refine ⟨by decide +kernel, ?_⟩
  rw [Within]; decide +kernel

end Verif.C46
