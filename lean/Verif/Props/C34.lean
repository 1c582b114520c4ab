import Verif.Model.Pipe
import Mathlib.Data.List.Induction
import Mathlib.Tactic.NormNum
/-! # C34: connection messages round-trip -/
namespace Verif.C34
open Verif.Pipe
variable {O R Q : Type}

/-- `pickle.loads` undoes `pickle.dumps` -/
def Inverse {X : Type} (p : Pickle X) : Prop := ∀ x, p.loads (p.dumps x) = some x

structure Sound (P : Pickles O R Q) : Prop where
  obj : Inverse P.obj
  rorp : Inverse P.rorp
  rpath : Inverse P.rpath

/-! ### numbers -/

theorem b2i_append (a b : Bytes) : b2i (a ++ b) = b2i a * 256 ^ b.length + b2i b := by
  induction b using List.reverseRecOn with
  | nil => simp [b2i]
  | append_singleton b x ih =>
    rw [← List.append_assoc]
    have : ∀ c : Bytes, b2i (c ++ [x]) = b2i c * 256 + x.toNat := fun c => by simp [b2i, List.foldl_append]
    rw [this, this, ih, List.length_append, List.length_singleton, pow_succ, add_mul, mul_assoc, add_assoc]

theorem digits_length (i n : Nat) : (digits i n).length = n := by
  induction n generalizing i with
  | zero => rfl
  | succ n ih => simp [digits, ih]

theorem b2i_digits {i n : Nat} (h : i < 256 ^ n) : b2i (digits i n) = i := by
  induction n generalizing i with
  | zero => simp at h; subst h; rfl
  | succ n ih =>
    have h1 : i / 256 < 256 ^ n := by rw [Nat.div_lt_iff_lt_mul (by omega)]; rwa [pow_succ] at h
    have h2 : (UInt8.ofNat (i % 256)).toNat = i % 256 := by simp
    have : ∀ c : Bytes, ∀ x, b2i (c ++ [x]) = b2i c * 256 + x.toNat := fun c x => by simp [b2i, List.foldl_append]
    rw [digits, this, ih h1, h2]
    omega

theorem lt_byteLength (i : Nat) : i < 256 ^ byteLength i := by
  induction i using byteLength.induct with
  | case1 => simp [byteLength]
  | case2 i h ih =>
    rw [byteLength, if_neg h, pow_succ]
    omega

/-- Numbers are read back as written. -/
theorem b2i_i2b {i size : Nat} {b : Bytes} (h : i2b i size = some b) : b2i b = i ∧ (size ≠ 0 → b.length = size) := by
  simp only [i2b, toBytes, Option.ite_none_right_eq_some, Option.some.injEq] at h
  obtain ⟨h2, rfl⟩ := h
  refine ⟨b2i_digits h2, fun hs => ?_⟩
  rw [digits_length, if_neg hs]

/-- Numbers of files and connections can always be written. -/
theorem i2b_zero (i : Nat) : ∃ b, i2b i 0 = some b := by simp [i2b, toBytes, lt_byteLength]

/-! ### chunks -/

theorem read_nil (cs : List Bytes) (n : Nat) : (readPipe cs n).1 = cs.flatten.take n ∧ (readPipe cs n).2.flatten = cs.flatten.drop n := by
  induction cs generalizing n with
  | nil => simp [readPipe]
  | cons c cs ih =>
    simp only [readPipe]
    split
    · rename_i h
      simp [List.take_append, List.drop_append, Nat.sub_eq_zero_of_le h]
    · rename_i h
      obtain ⟨h1, h2⟩ := ih (n - c.length)
      have e1 : c.take n = c := List.take_of_length_le (by omega)
      have e2 : c.drop n = [] := List.drop_of_length_le (by omega)
      simp only [List.flatten_cons, List.take_append, List.drop_append, h1, h2, e1, e2, List.nil_append, and_self]

/-! ### one message -/

theorem write_eq {letter : UInt8} {data : Bytes} {req : Nat} {b : Bytes} (h : write letter data req = some b) :
    ∃ r n, b = letter :: (r ++ (n ++ data)) ∧ r.length = 1 ∧ n.length = 7 ∧ b2i r = req ∧ b2i n = data.length := by
  simp only [write, Option.bind_eq_some_iff, Option.map_eq_some_iff] at h
  obtain ⟨r, h1, n, h2, rfl⟩ := h
  obtain ⟨a1, a2⟩ := b2i_i2b h1
  obtain ⟨b1, b2⟩ := b2i_i2b h2
  exact ⟨r, n, by simp, a2 (by omega), b2 (by omega), a1, b1⟩

theorem decode_payload {P : Pickles O R Q} (hP : Sound P) {i : Item O R Q} {x : UInt8 × Bytes} (h : payload P i = some x) :
    x.1 ≠ 113 ∧ decode P x.1 x.2 = some i := by
  cases i with
  | obj o => cases h; simp [decode, hP.obj o]
  | buf b => cases h; simp [decode]
  | file id =>
    obtain ⟨b, h1, rfl⟩ := Option.map_eq_some_iff.1 h
    simp [decode, (b2i_i2b h1).1]
  | iter id =>
    obtain ⟨b, h1, rfl⟩ := Option.map_eq_some_iff.1 h
    simp [decode, (b2i_i2b h1).1]
  | rorp r => cases h; simp [decode, hP.rorp r]
  | rpath q => cases h; simp [decode, hP.rpath q]
  | quoted q => cases h; simp [decode, hP.rpath q]
  | stored q => cases h; simp [decode, hP.rpath q]
  | conn n =>
    obtain ⟨b, h1, rfl⟩ := Option.map_eq_some_iff.1 h
    simp [decode, (b2i_i2b h1).1]

theorem get_put {P : Pickles O R Q} (hP : Sound P) {i : Item O R Q} {req : Nat} {b rest : Bytes} (h : putMsg P i req = some b) {pipe : List Bytes}
    (hp : pipe.flatten = b ++ rest) : (getMsg P pipe).1 = .item req i ∧ (getMsg P pipe).2.flatten = rest := by
  obtain ⟨x, h1, h2⟩ := Option.bind_eq_some_iff.1 h
  obtain ⟨r, n, rfl, hr, hn, er, en⟩ := write_eq h2
  obtain ⟨hq, hd⟩ := decode_payload hP h1
  obtain ⟨a1, a2⟩ := read_nil pipe 9
  have l9 : (x.1 :: (r ++ n)).length = 9 := by simp [hr, hn]
  have hp' : pipe.flatten = (x.1 :: (r ++ n)) ++ (x.2 ++ rest) := by rw [hp]; simp
  have e1 : (readPipe pipe 9).1 = x.1 :: (r ++ n) := by rw [a1, hp', List.take_left' l9]
  have e2 : (readPipe pipe 9).2.flatten = x.2 ++ rest := by rw [a2, hp', List.drop_left' l9]
  obtain ⟨c1, c2⟩ := read_nil (readPipe pipe 9).2 x.2.length
  have e3 : (readPipe (readPipe pipe 9).2 x.2.length).1 = x.2 := by rw [c1, e2]; simp
  have e4 : (readPipe (readPipe pipe 9).2 x.2.length).2.flatten = rest := by rw [c2, e2]; simp
  have f1 : b2i (((x.1 :: (r ++ n)).drop 1).take 1) = req := by
    simp [hr, er]
  have f2 : b2i ((x.1 :: (r ++ n)).drop 2) = x.2.length := by
    have : (x.1 :: (r ++ n)).drop 2 = n := by
      rw [← List.cons_append, List.drop_left' (by simp [hr])]
    rw [this, en]
  simp only [getMsg, e1, f1, f2, l9, List.headD_cons, e3, hd]
  simp [hq, e4]

/-! ### a sequence of messages -/

/-- the bytes on the pipe for messages sent one after the other -/
def putAll (P : Pickles O R Q) : List (Nat × Item O R Q) → Option Bytes
  | [] => some []
  | (req, i) :: ms => (putMsg P i req).bind fun b => (putAll P ms).map (b ++ ·)

/-- the results of `n` reads -/
def getN (P : Pickles O R Q) (pipe : List Bytes) : Nat → List (Got O R Q) × List Bytes
  | 0 => ([], pipe)
  | n + 1 =>
    let g := getMsg P pipe
    let r := getN P g.2 n
    (g.1 :: r.1, r.2)

theorem getN_put {P : Pickles O R Q} (hP : Sound P) {ms : List (Nat × Item O R Q)} {b rest : Bytes} (h : putAll P ms = some b) {pipe : List Bytes}
    (hp : pipe.flatten = b ++ rest) :
    (getN P pipe ms.length).1 = ms.map (fun m => .item m.1 m.2) ∧ (getN P pipe ms.length).2.flatten = rest := by
  induction ms generalizing b pipe with
  | nil => cases h; exact ⟨rfl, by simpa [getN] using hp⟩
  | cons m ms ih =>
    obtain ⟨req, i⟩ := m
    simp only [putAll, Option.bind_eq_some_iff, Option.map_eq_some_iff] at h
    obtain ⟨b1, h1, b2, h2, rfl⟩ := h
    obtain ⟨g1, g2⟩ := get_put hP h1 (rest := b2 ++ rest) (by rw [hp]; simp)
    obtain ⟨r1, r2⟩ := ih h2 g2
    exact ⟨by simp only [List.length_cons, getN, List.map_cons]; rw [g1, r1], by simpa [getN] using r2⟩

/-- C34: Whatever is sent, whatever the pieces in which it arrives: the same things are read, with the same numbers of requests, in the same order. And nothing is
left, so that the reader then notices that the pipe has been closed. -/
theorem messages_roundtrip {P : Pickles O R Q} (hP : Sound P) {ms : List (Nat × Item O R Q)} {b : Bytes} (h : putAll P ms = some b) {pipe : List Bytes}
    (hp : pipe.flatten = b) :
    (getN P pipe ms.length).1 = ms.map (fun m => .item m.1 m.2) ∧ (getN P pipe ms.length).2.flatten = [] ∧
    (getMsg P (getN P pipe ms.length).2).1 = .truncated := by
  obtain ⟨h1, h2⟩ := getN_put hP h (rest := []) (by simpa using hp)
  refine ⟨h1, h2, ?_⟩
  obtain ⟨a1, _⟩ := read_nil (getN P pipe ms.length).2 9
  rw [h2] at a1
  simp [getMsg, a1]

/-- with a quit signal at the end -/
theorem quit_received {P : Pickles O R Q} (hP : Sound P) {ms : List (Nat × Item O R Q)} {b q : Bytes} (h : putAll P ms = some b) (hq : putQuit = some q)
    {pipe : List Bytes} (hp : pipe.flatten = b ++ q) :
    (getN P pipe (ms.length + 1)).1 = ms.map (fun m => .item m.1 m.2) ++ [.quit] := by
  have key : ∀ (n : Nat) (pipe : List Bytes), (getN P pipe (n + 1)).1 = (getN P pipe n).1 ++ [(getMsg P (getN P pipe n).2).1] := by
    intro n
    induction n with
    | zero => intro pipe; rfl
    | succ n ih =>
      intro pipe
      have := ih (getMsg P pipe).2
      conv_lhs => rw [getN]
      simp only [this]
      rfl
  obtain ⟨h1, h2⟩ := getN_put hP h hp
  rw [key, h1]
  congr 2
  obtain ⟨a1, a2⟩ := read_nil (getN P pipe ms.length).2 9
  have hq' : q = [113, 255, 0, 0, 0, 0, 0, 0, 0] := by
    have : putQuit = some [113, 255, 0, 0, 0, 0, 0, 0, 0] := by decide +kernel
    rw [this] at hq; exact (Option.some.inj hq).symm
  rw [h2, hq'] at a1
  simp [getMsg, a1]

/-- What can be sent: everything, unless the data are 2^56 bytes or more. -/
theorem can_send (P : Pickles O R Q) (i : Item O R Q) {req : Nat} (hr : req < 256) (hs : ∀ x, payload P i = some x → x.2.length < 2 ^ 56) :
    ∃ b, putMsg P i req = some b := by
  have hx : ∃ x, payload P i = some x := by
    cases i with
    | file id => obtain ⟨b, hb⟩ := i2b_zero id; exact ⟨_, by rw [payload, hb]; rfl⟩
    | iter id => obtain ⟨b, hb⟩ := i2b_zero id; exact ⟨_, by rw [payload, hb]; rfl⟩
    | conn id => obtain ⟨b, hb⟩ := i2b_zero id; exact ⟨_, by rw [payload, hb]; rfl⟩
    | _ => exact ⟨_, rfl⟩
  obtain ⟨x, hx⟩ := hx
  have h1 : req < 256 ^ 1 := by omega
  have h2 : x.2.length < 256 ^ 7 := lt_of_lt_of_eq (hs x hx) (by norm_num)
  have k1 : i2b req 1 = some (digits req 1) := if_pos h1
  have k2 : i2b x.2.length 7 = some (digits x.2.length 7) := if_pos h2
  simp only [putMsg, hx, Option.bind_some, write, k1, k2, Option.map_some]
  exact ⟨_, rfl⟩

/-! ### examples -/

/-- objects which are bytes already -/
def idPickle : Pickle Bytes := ⟨id, some⟩
def exP : Pickles Bytes Bytes Bytes := ⟨idPickle, idPickle, idPickle⟩
def exMs : List (Nat × Item Bytes Bytes Bytes) := [(3, .obj [1, 2]), (3, .buf []), (255, .iter 300), (0, .file 0), (7, .rpath [9])]

example : Sound exP := ⟨fun _ => rfl, fun _ => rfl, fun _ => rfl⟩
example : putAll exP exMs = some [111, 3, 0, 0, 0, 0, 0, 0, 2, 1, 2, 98, 3, 0, 0, 0, 0, 0, 0, 0, 105, 255, 0, 0, 0, 0, 0, 0, 2, 1, 44,
    102, 0, 0, 0, 0, 0, 0, 0, 0, 82, 7, 0, 0, 0, 0, 0, 0, 1, 9] := by decide +kernel
example : (getN exP [[111, 3, 0], [0, 0, 0, 0, 0, 2, 1], [], [2, 98, 3, 0, 0, 0, 0, 0, 0, 0, 105, 255, 0, 0, 0, 0, 0, 0, 2], [1, 44]] 3).1 =
    [.item 3 (.obj [1, 2]), .item 3 (.buf []), .item 255 (.iter 300)] := by decide +kernel
/-- a request number is limited to 255 -/
example : putMsg exP (.buf [1]) 256 = none := by decide +kernel

/-- Finding F32: if the connection is cut within raw data, the shortened data are taken for the whole (`_read` 328-332 doesn't check the length). -/
theorem cut_data_accepted : ∃ b : Bytes, putMsg exP (.buf [1, 2, 3]) 5 = some b ∧ (getMsg exP [b.take 11]).1 = .item 5 (.buf [1, 2]) :=
  ⟨[98, 5, 0, 0, 0, 0, 0, 0, 3, 1, 2, 3], by decide +kernel, by decide +kernel⟩

end Verif.C34
