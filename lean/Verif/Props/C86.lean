import Verif.Proof.Completion

/-
C86  Completion proposes what can be put there

Specification (`Spec/Completion.lean`): `Reads P [prog] ws Q since`: the words before the cursor lead to the parser `Q` of the last action, which was given by the first
of the words `since`; `Takes`: an option which is followed by a value; `Location`: a location can be at the cursor. `Typed`: options which are followed by a value
have a type: without it the code doesn't see that they are.
-/
namespace Verif.C86
open Verif.Completion Verif.Spec.Completion

def Typed (P : Parser) : Prop := ∀ p o, P.opts.lookup p = some o → (o.takes = true ↔ o.typed = true)

/-- C86 Where an option or an action can be: exactly the options and actions are proposed which start with the word under the cursor and haven't been given yet,
each once, sorted by their letters; then, iff nothing starts so, or nothing has been entered, and a location can be there, the mark for files. -/
theorem proposed_partial (P : Parser) (prog : Word) (ws : List Word) (w : Word) (after : List Word) (Q : Parser) (since : List Word) (hprog : prog ∉ P.names)
    (h : Reads P [prog] ws Q since) (hw : w ∉ Q.names) (ha : ∀ x ∈ after, x ∉ Q.names) (hQ : (Q.opts.map (·.1) ++ Q.names).Nodup) (ht : Typed Q)
    (hprev : ∀ p, since.getLast? = some p → ¬ Takes Q p) :
    ∃ l b, run P (prog :: ws ++ w :: after) (prog :: ws).length true = .lines (l ++ if b = true then [fileMark] else []) ∧ l.Nodup ∧
      l.Pairwise (fun a b => key a ≤ key b) ∧
      (∀ x, x ∈ l ↔ (x ∈ Q.opts.map (·.1) ∨ x ∈ Q.names) ∧ w <+: x ∧ (x ∉ since ++ w :: after ∨ (w ≠ [] ∧ x = w))) ∧
      (b = true ↔ Location Q after ∧ (w = [] ∨ ∀ x, x ∈ Q.opts.map (·.1) ∨ x ∈ Q.names → ¬ w <+: x)) := by
  obtain ⟨hs0, hs⟩ := reads_seen h (by simp) (by intro x hx; simp at hx; rw [hx]; exact hprog)
  obtain ⟨l, b, h1, h2, h3, h4, h5⟩ := matching_options (both Q) Q since w after (both_nodup Q hQ) (by
    intro p hp o ho
    rcases both_lookup Q p o ho with ho | ho
    · have h1 := hprev p hp
      cases hty : o.typed with
      | false => rfl
      | true => exact absurd ⟨o, ho, (ht p o ho).2 hty⟩ h1
    · exact ho) hs0
  refine ⟨l, b, ?_, h2, h3, ?_, ?_⟩
  · have e : run P (prog :: ws ++ w :: after) (prog :: ws).length true = _ := run_eq P (prog :: ws ++ w :: after) (prog :: ws).length true (by simp)
    rw [e, follows hprog h w after ha, sub_none, h1]
    intro x hx
    simp only [List.mem_append, List.mem_cons] at hx
    rcases hx with hx | rfl | hx
    · exact hs x hx
    · exact hw
    · exact ha x hx
  · intro x; rw [h4, both_names]
  · rw [h5]; simp only [both_names]

/-- C86 Where the value of an option has to be: its choices, or the mark for files, or nothing. -/
theorem value_proposed_partial (P : Parser) (prog : Word) (ws : List Word) (w : Word) (after : List Word) (Q : Parser) (since : List Word) (hprog : prog ∉ P.names)
    (h : Reads P [prog] ws Q since) (hw : w ∉ Q.names) (ha : ∀ x ∈ after, x ∉ Q.names) (ht : Typed Q) (p : Word) (hp : since.getLast? = some p) (o : Opt)
    (ho : Q.opts.lookup p = some o) (hto : o.takes = true) (u : Bool) :
    run P (prog :: ws ++ w :: after) (prog :: ws).length u = .lines (if o.choices ≠ [] then o.choices else if o.file then [fileMark] else []) := by
  obtain ⟨hs0, hs⟩ := reads_seen h (by simp) (by intro x hx; simp at hx; rw [hx]; exact hprog)
  have e : run P (prog :: ws ++ w :: after) (prog :: ws).length u = _ := run_eq P (prog :: ws ++ w :: after) (prog :: ws).length u (by simp)
  rw [e, follows hprog h w after ha, sub_none, matching_value _ _ _ _ _ _ p hp o _ ((ht p o ho).1 hto)]
  · rw [both, List.lookup_append, ho]; rfl
  · intro x hx
    simp only [List.mem_append, List.mem_cons] at hx
    rcases hx with hx | rfl | hx
    · exact hs x hx
    · exact hw
    · exact ha x hx

/-- C86 The name of an action under the cursor, if it isn't the last of two words: it is complete. -/
theorem action_proposed (P : Parser) (prog : Word) (ws : List Word) (w : Word) (after : List Word) (Q : Parser) (since : List Word) (hprog : prog ∉ P.names)
    (h : Reads P [prog] ws Q since) (hw : w ∈ Q.names) (ha : ∀ x ∈ after, x ∉ Q.names) (hl : 2 ≤ since.length + after.length) (u : Bool) :
    run P (prog :: ws ++ w :: after) (prog :: ws).length u = .lines [w] := by
  obtain ⟨hs0, hs⟩ := reads_seen h (by simp) (by intro x hx; simp at hx; rw [hx]; exact hprog)
  have e : run P (prog :: ws ++ w :: after) (prog :: ws).length u = _ := run_eq P (prog :: ws ++ w :: after) (prog :: ws).length u (by simp)
  rw [e, follows hprog h w after ha, sub_at Q since w after u hs hw hl]

/-- C86 If the action comes behind the cursor: the options which can be before it. -/
theorem before_action_partial (P : Parser) (prog : Word) (ws : List Word) (w : Word) (after : List Word) (hprog : prog ∉ P.names) (hws : ∀ x ∈ ws, x ∉ P.names)
    (hw : w ∉ P.names) (ha : ∃ x ∈ after, x ∈ P.names) (hP : (P.opts.map (·.1)).Nodup) (ht : Typed P)
    (hprev : ∀ p, (prog :: ws).getLast? = some p → ¬ Takes P p) :
    ∃ l b, run P (prog :: ws ++ w :: after) (prog :: ws).length true = .lines (l ++ if b = true then [fileMark] else []) ∧ l.Nodup ∧
      l.Pairwise (fun a b => key a ≤ key b) ∧
      (∀ x, x ∈ l ↔ x ∈ P.opts.map (·.1) ∧ w <+: x ∧ (x ∉ prog :: ws ++ w :: after ∨ (w ≠ [] ∧ x = w))) ∧
      (b = true ↔ Location P after ∧ (w = [] ∨ ∀ x ∈ P.opts.map (·.1), ¬ w <+: x)) := by
  obtain ⟨l, b, h1, h2⟩ := matching_options P.opts P (prog :: ws) w after hP (by
    intro p hp o ho
    have h1 := hprev p hp
    cases hty : o.typed with
    | false => rfl
    | true => exact absurd ⟨o, ho, (ht p o ho).2 hty⟩ h1) (by simp)
  refine ⟨l, b, ?_, h2⟩
  have e : run P (prog :: ws ++ w :: after) (prog :: ws).length true = _ := run_eq P (prog :: ws ++ w :: after) (prog :: ws).length true (by simp)
  have hf : ∃ k, (prog :: ws ++ w :: after).findIdx? (fun w => decide (w ∈ P.names)) = some k ∧ (prog :: ws).length < k := by
    have h1 : (prog :: ws).findIdx? (fun w => decide (w ∈ P.names)) = none := by
      refine findIdx_none _ _ fun y hy => ?_
      simp at hy
      rcases hy with rfl | hy
      · simpa using hprog
      · simpa using hws y hy
    rw [List.findIdx?_append, h1, List.findIdx?_cons]
    simp only [hw, decide_false, Bool.false_eq_true, if_false, Option.none_or]
    obtain ⟨x, hx, hxn⟩ := ha
    cases hfi : after.findIdx? (fun w => decide (w ∈ P.names)) with
    | none => rw [List.findIdx?_eq_none_iff] at hfi; have := hfi x hx; simp [hxn] at this
    | some k => exact ⟨_, rfl, by simp⟩
  obtain ⟨k, hk, hlt⟩ := hf
  have hlen : 0 < after.length := by obtain ⟨x, hx, -⟩ := ha; exact List.length_pos_of_mem hx
  rw [e, options, if_neg (by simp), if_neg (by simp only [List.length_append, List.length_cons]; omega), hk]
  simp only
  rw [if_neg (by omega), if_neg (by omega), h1]

/-- C86 Nothing is done iff there are no words, or the cursor isn't at any of them. -/
theorem refused (P : Parser) (words : List Word) (c : Int) (u : Bool) : run P words c u = .refused ↔ words = [] ∨ c < -words.length ∨ (words.length : Int) ≤ c := by
  constructor
  · intro h
    simp only [run] at h
    split at h
    · next hc => exact hc
    · split at h <;> simp at h
  · intro h; simp only [run, if_pos h]

/-- C86 The cursor can be given from the end. -/
theorem from_the_end (P : Parser) (words : List Word) (c : Nat) (u : Bool) (h : c < words.length) : run P words ((c : Int) - words.length) u = run P words c u := by
  have h0 : words ≠ [] := by rintro rfl; simp at h
  have h1 : ¬ (words = [] ∨ (c : Int) - words.length < -(words.length : Int) ∨ (words.length : Int) ≤ (c : Int) - words.length) := by
    rintro (h2 | h2 | h2)
    · exact h0 h2
    · omega
    · omega
  rw [run_eq P words c u h]
  simp only [run, if_neg h1, if_pos (show (c : Int) - words.length < 0 by omega)]
  rw [show ((c : Int) - words.length + words.length).toNat = c by omega]
  rfl

/-- C86 At the name of the program: this name. -/
theorem program_name (P : Parser) (prog : Word) (rest : List Word) (u : Bool) : run P (prog :: rest) 0 u = .lines [prog] := by
  have h : run P (prog :: rest) ((0 : Nat) : Int) u = _ := run_eq P (prog :: rest) 0 u (by simp)
  have h3 : run P (prog :: rest) 0 u = run P (prog :: rest) ((0 : Nat) : Int) u := rfl
  rw [h3, h]
  simp [options]

/-! ## The code differs -/

def flag : Opt := { takes := false, typed := false, choices := [], file := false }

/-- a part of rdiff-backup's command line: `--verbosity` with choices, `--version`, `--map` with a file, `--tempdir`; `list files` with `--size`, `restore` with `--at`
(which has a value, but no type) and `--increment`, and two locations -/
def cli : Parser :=
  .mk [("--verbosity".toList, { takes := true, typed := true, choices := ["0".toList, "1".toList], file := false }), ("--version".toList, flag),
       ("--map".toList, { takes := true, typed := true, choices := [], file := true }), ("--tempdir".toList, { takes := true, typed := true, choices := [], file := false })]
    ["list".toList, "restore".toList]
    (fun w => if w = "list".toList then
        .mk [("--help".toList, flag)] ["files".toList, "increments".toList] (fun _ => .mk [("--size".toList, flag), ("--help".toList, flag)] [] (fun _ => .empty) (some (.exactly 1))) none
      else .mk [("--at".toList, { takes := true, typed := false, choices := [], file := false }), ("--increment".toList, flag)] [] (fun _ => .empty) (some (.exactly 2))) none

/-- what is proposed, as strings -/
def proposes (words : List String) (c : Int) (unique : Bool) : Option (List String) :=
  match run cli (words.map String.toList) c unique with
  | .lines l => some (l.map String.ofList)
  | _ => none

/-- C86 `--no-unique` always ends in an exception where options are to be proposed. -/
theorem not_unique_crashes (P : Parser) (prog w : Word) (h : P.opts.lookup prog = none) (hp : prog ∉ P.names) : run P [prog, w] 1 false = .crash := by
  have h1 : (both P).lookup prog = none := by
    rw [both, lookup_append_none h]
    rw [List.lookup_eq_none_iff]
    intro x hx
    simp only [List.mem_map] at hx
    obtain ⟨n, hn, rfl⟩ := hx
    simp only [ne_eq, bne_iff_ne]
    rintro rfl
    exact hp hn
  have h2 : run P [prog, w] ((1 : Nat) : Int) false = _ := run_eq P [prog, w] 1 false (by simp)
  have h3 : run P [prog, w] 1 false = run P [prog, w] ((1 : Nat) : Int) false := rfl
  rw [h3, h2]
  simp [options, matching, h1]

/-- C86 An option in front of a sub-action which has been entered already ends in an exception, too. -/
theorem before_subaction_crashes : run cli (["rdiff-backup", "list", "--he", "files"].map String.toList) 2 true = .crash := by decide +kernel

/-- C86 The value of an option without a type isn't recognised: after `restore --at` options are proposed, though a time must follow. -/
theorem untyped_value : proposes ["rdiff-backup", "restore", "--at", ""] 3 true = some ["--increment", "::file::"] ∧ ¬ Typed (cli.sub "restore".toList) := by
  refine ⟨by decide +kernel, fun h => ?_⟩
  have := h "--at".toList { takes := true, typed := false, choices := [], file := false } (by decide +kernel)
  simp at this

/-- C86 A value which is called like an action is taken for the action. -/
theorem value_as_action : proposes ["rdiff-backup", "--tempdir", "list", "--ver"] 3 true = some [] ∧
    proposes ["rdiff-backup", "--tempdir", "lost", "--ver"] 3 true = some ["--verbosity", "--version"] := by decide +kernel

/-! ## The theorems speak about something -/

example : proposes ["rdiff-backup", "--ver"] 1 true = some ["--verbosity", "--version"] := by decide +kernel
example : proposes ["rdiff-backup", ""] 1 true = some ["list", "--map", "restore", "--tempdir", "--verbosity", "--version"] := by decide +kernel
example : proposes ["rdiff-backup", "--verbosity", ""] 2 true = some ["0", "1"] ∧ proposes ["rdiff-backup", "--map", "x"] 2 true = some ["::file::"] ∧
    proposes ["rdiff-backup", "--tempdir", "x"] 2 true = some [] := by decide +kernel
example : proposes ["rdiff-backup", "--version", "--ver", "list"] 2 true = some ["--verbosity"] := by decide +kernel
example : proposes ["rdiff-backup", "--verbosity", "1", "list", "files", "--h", "x"] 5 true = some ["--help"] ∧
    proposes ["rdiff-backup", "--verbosity", "1", "list", "files", "--help", ""] (-1) true = some ["--size", "::file::"] ∧
    proposes ["rdiff-backup", "--verbosity", "1", "list", "files", "--help", "x"] 3 true = some ["list"] := by decide +kernel
example : run cli [] 0 true = .refused ∧ run cli ["a".toList] 1 true = .refused := by decide +kernel

/-- the hypotheses of `proposed_partial` -/
example : Reads cli ["rdiff-backup".toList] (["--verbosity", "1", "list", "files", "--help"].map String.toList)
    (.mk [("--size".toList, flag), ("--help".toList, flag)] [] (fun _ => .empty) (some (.exactly 1))) (["files", "--help"].map String.toList) := by
  refine .value ⟨_, rfl, rfl⟩ (by decide +kernel) (by decide +kernel) (.action (by decide +kernel) (by decide +kernel)
    (.action (w := "files".toList) (by decide +kernel) (by decide +kernel) (.other (by decide +kernel) ?_ (.done _ _))))
  rintro ⟨o, ho, hto⟩
  have : o = flag := by
    have h1 : (Parser.mk [("--size".toList, flag), ("--help".toList, flag)] [] (fun _ => .empty) (some (.exactly 1))).opts.lookup "--help".toList = some flag := rfl
    exact (Option.some.inj (h1.symm.trans ho)).symm
  rw [this] at hto; simp [flag] at hto

end Verif.C86
