import Verif.Props.C74

/-!
# C75: circuits of gates of any size and depth
-/
namespace Tfhe
set_option linter.unusedSectionVars false
open Poly

/-! ### Specification -/

/-- One call of the API on numbered ciphertexts: a bootstrapped gate or `NOT`.  The ciphertexts may coincide. -/
inductive Instr where
  | gate (g : Gate) (out ct0 ct1 : ℕ)
  | not (out ct : ℕ)

/-- What a program computes on plain bits. -/
def runPlain : List Instr → (ℕ → Bool) → ℕ → Bool
  | [], v => v
  | .gate g out ct0 ct1 :: l, v => runPlain l fun x => if x = out then g.eval (v ct0) (v ct1) else v x
  | .not out ct :: l, v => runPlain l fun x => if x = out then !v ct else v x

/-- Every call reads only ciphertexts in `S` or written by an earlier call. -/
def Reads : Set ℕ → List Instr → Prop
  | _, [] => True
  | S, .gate _ out ct0 ct1 :: l => ct0 ∈ S ∧ ct1 ∈ S ∧ Reads (insert out S) l
  | S, .not out ct :: l => ct ∈ S ∧ Reads (insert out S) l

/-- The ciphertext a call writes. -/
def Instr.out : Instr → ℕ
  | .gate _ out _ _ => out
  | .not out _ => out

/-- The ciphertexts that hold a bit after the program. -/
def written (S : Set ℕ) : List Instr → Set ℕ
  | [] => S
  | i :: l => written (insert i.out S) l

theorem mem_written (l : List Instr) : ∀ (S : Set ℕ) (v : ℕ), v ∈ written S l ↔ v ∈ S ∨ ∃ i ∈ l, i.out = v := by
  induction l with
  | nil => intro S v; simp [written]
  | cons i l ih =>
    intro S v
    rw [written, ih]
    simp only [Set.mem_insert_iff, List.mem_cons, exists_eq_or_imp, eq_comm (a := v)]
    tauto

theorem runPlain_append (l l' : List Instr) : ∀ v, runPlain (l ++ l') v = runPlain l' (runPlain l v) := by
  induction l with
  | nil => intro v; rfl
  | cons i l ih => intro v; cases i <;> exact ih _

theorem reads_append (l l' : List Instr) : ∀ S, Reads S (l ++ l') ↔ Reads S l ∧ Reads (written S l) l' := by
  induction l with
  | nil => intro S; simp [Reads, written]
  | cons i l ih =>
    intro S
    cases i with
    | gate g out c0 c1 => simp only [List.cons_append, Reads, ih, written, Instr.out]; tauto
    | not out c => simp only [List.cons_append, Reads, ih, written, Instr.out]; tauto

theorem Reads.mono (l : List Instr) : ∀ {S T : Set ℕ}, S ⊆ T → Reads S l → Reads T l := by
  induction l with
  | nil => intro _ _ _ _; trivial
  | cons i l ih =>
    intro S T hST h
    cases i with
    | gate g out c0 c1 => exact ⟨hST h.1, hST h.2.1, ih (Set.insert_subset_insert hST) h.2.2⟩
    | not out c => exact ⟨hST h.1, ih (Set.insert_subset_insert hST) h.2⟩

/-- All ciphertexts in `S` encrypt the bits `v` with noise at most `B`. -/
def EncAll {w dim : ℕ} (sk : Fin dim → BitVec w) (S : Set ℕ) (m : Mem (BitVec w)) (v : ℕ → Bool) (B : ℕ) : Prop :=
  ∀ x ∈ S, EncBit sk (ctOf dim m x) (v x) B

theorem EncBit.mono {w n : ℕ} {sk : Fin n → BitVec w} {ct : Fin (n + 1) → BitVec w} {x : Bool} {E E' : ℕ}
    (h : EncBit sk ct x E) (hE : E ≤ E') : EncBit sk ct x E' := by
  obtain ⟨e, h1, h2⟩ := h
  exact ⟨e, h1.trans (by exact_mod_cast hE), h2⟩

theorem EncAll.step {w dim : ℕ} {sk : Fin dim → BitVec w} {S : Set ℕ} {m m' : Mem (BitVec w)} {v : ℕ → Bool} {B : ℕ}
    (h : EncAll sk S m v B) (out : ℕ) (y : Bool) (h1 : EncBit sk (ctOf dim m' out) y B)
    (h2 : ∀ z i, ¬(z = out ∧ i < dim + 1) → m' z i = m z i) :
    EncAll sk (insert out S) m' (fun x => if x = out then y else v x) B := by
  intro x hx
  by_cases hxo : x = out
  · subst hxo
    simpa using h1
  · have hxS : x ∈ S := (Set.mem_insert_iff.mp hx).resolve_left hxo
    have heq : ctOf dim m' x = ctOf dim m x := by
      funext t
      exact h2 x t fun hh => hxo hh.1
    show EncBit sk (ctOf dim m' x) (if x = out then y else v x) B
    rw [heq, if_neg hxo]
    exact h x hxS

/-! ### The package `tfhe` -/

section
variable {w N k : ℕ} [NeZero N] (b : Boot w N k)

/-- Fourier errors and old contents of the buffers during one call. -/
structure Scratch (w N k : ℕ) where
  err : ℕ → ℕ → Fin (k + 1) → Poly N (BitVec w)
  old : ℕ → Poly N (BitVec w)
  buf : ℕ → BitVec w

/-- A program on ciphertexts: one call after another, each with its own contents of the buffers. -/
def Boot.runCircuit (order : BootstrapOrder) : List (Instr × Scratch w N k) → Mem (BitVec w) → Mem (BitVec w)
  | [], m => m
  | (.gate g out ct0 ct1, s) :: l, m => Boot.runCircuit order l (b.gate g order s.err s.old s.buf out ct0 ct1 m)
  | (.not out ct, _) :: l, m => Boot.runCircuit order l (notTo (b.ctDim order) out ct m)

/-- The noise budget: with inputs of noise `B` every gate is in its margin, and its output has noise at most `B` again. -/
structure Boot.Budget (order : BootstrapOrder) (B : ℕ) : Prop where
  out : b.outNoise order ≤ B
  dec : B < 2 ^ (w - 3)
  gates : ∀ g : Gate, g.gain * (B + B) * (2 * (b.f * N : ℕ)) / 2 ^ w + b.indexErr order < g.margin * (b.f * N : ℕ)

theorem Boot.runCircuit_enc (order : BootstrapOrder) (hw : 3 ≤ w) (hb : b.KeyValid) (hext : b.f = 1 ∨ 2 ≤ b.bc) (B : ℕ)
    (hB : b.Budget order B) (l : List (Instr × Scratch w N k)) :
    (∀ p ∈ l, ∀ i q, pabs (phase b.sk (p.2.err i q)) ≤ b.Fe) → ∀ (S : Set ℕ) (m : Mem (BitVec w)) (v : ℕ → Bool),
      Reads S (l.map Prod.fst) → EncAll (b.key order) S m v B →
      EncAll (b.key order) (written S (l.map Prod.fst)) (b.runCircuit order l m) (runPlain (l.map Prod.fst) v) B ∧
        ∀ x i, (∀ p ∈ l, p.1.out ≠ x) ∨ b.ctDim order < i → b.runCircuit order l m x i = m x i := by
  induction l with
  | nil => intro _ S m v _ h; exact ⟨h, fun _ _ _ => rfl⟩
  | cons p l ih =>
    intro hF S m v hr h
    have hF' : ∀ p ∈ l, ∀ i q, pabs (phase b.sk (p.2.err i q)) ≤ b.Fe := fun q hq => hF q (List.mem_cons_of_mem _ hq)
    obtain ⟨i, s⟩ := p
    cases i with
    | gate g out c0 c1 =>
      obtain ⟨h0, h1, hr'⟩ := hr
      have hFs : ∀ i q, pabs (phase b.sk (s.err i q)) ≤ b.Fe := hF (.gate g out c0 c1, s) List.mem_cons_self
      obtain ⟨m1, e1, g1, g2⟩ : ∃ m1, b.gate g order s.err s.old s.buf out c0 c1 m = m1 ∧
          EncBit (b.key order) (ctOf (b.ctDim order) m1 out) (g.eval (v c0) (v c1)) (b.outNoise order) ∧
          ∀ z i, ¬(z = out ∧ i < b.ctDim order + 1) → m1 z i = m z i :=
        ⟨_, rfl, C21_gate_partial b g order hw hb hext s.err hFs s.old s.buf out c0 c1 m (v c0) (v c1) B B
          (h c0 h0) (h c1 h1) (hB.gates g)⟩
      have hrun : b.runCircuit order ((.gate g out c0 c1, s) :: l) m = b.runCircuit order l m1 := by
        rw [Boot.runCircuit, e1]
      rw [hrun]
      obtain ⟨r1, r2⟩ := ih hF' (insert out S) m1 _ hr' (h.step out _ (g1.mono hB.out) g2)
      refine ⟨r1, fun x i hx => ?_⟩
      refine (r2 x i (hx.imp_left fun hx q hq => hx q (List.mem_cons_of_mem _ hq))).trans (g2 x i fun hh => ?_)
      rcases hx with hx | hx
      · exact hx _ List.mem_cons_self hh.1.symm
      · exact absurd hh.2 (by omega)
    | not out c =>
      obtain ⟨h0, hr'⟩ := hr
      obtain ⟨m1, e1, g1, g2⟩ : ∃ m1, notTo (b.ctDim order) out c m = m1 ∧
          EncBit (b.key order) (ctOf (b.ctDim order) m1 out) (!v c) B ∧
          ∀ z i, ¬(z = out ∧ i < b.ctDim order + 1) → m1 z i = m z i :=
        ⟨_, rfl, C21_not (b.key order) out c m (v c) B (h c h0)⟩
      have hrun : b.runCircuit order ((.not out c, s) :: l) m = b.runCircuit order l m1 := by
        rw [Boot.runCircuit, e1]
      rw [hrun]
      obtain ⟨r1, r2⟩ := ih hF' (insert out S) m1 _ hr' (h.step out _ g1 g2)
      refine ⟨r1, fun x i hx => ?_⟩
      refine (r2 x i (hx.imp_left fun hx q hq => hx q (List.mem_cons_of_mem _ hq))).trans (g2 x i fun hh => ?_)
      rcases hx with hx | hx
      · exact hx _ List.mem_cons_self hh.1.symm
      · exact absurd hh.2 (by omega)

/-- **C75 (tfhe).** A program of any number of gates and `NOT`s, in any wiring (also writing to its own inputs), on ciphertexts of
bits with noise in the budget: every ciphertext that was an input or was written decrypts to what the program computes on plain
bits; the other ciphertexts are unchanged.  The depth does not matter. -/
theorem C75_circuit (order : BootstrapOrder) (hw : 3 ≤ w) (hb : b.KeyValid) (hext : b.f = 1 ∨ 2 ≤ b.bc) (B : ℕ)
    (hB : b.Budget order B) (l : List (Instr × Scratch w N k))
    (hF : ∀ p ∈ l, ∀ i q, pabs (phase b.sk (p.2.err i q)) ≤ b.Fe) (S : Set ℕ) (m : Mem (BitVec w)) (v : ℕ → Bool)
    (hr : Reads S (l.map Prod.fst)) (h : EncAll (b.key order) S m v B) :
    (∀ x, (x ∈ S ∨ ∃ p ∈ l, p.1.out = x) →
      decryptLWEBool (b.key order) (ctOf (b.ctDim order) (b.runCircuit order l m) x) = runPlain (l.map Prod.fst) v x) ∧
    ∀ x, (∀ p ∈ l, p.1.out ≠ x) → b.runCircuit order l m x = m x := by
  obtain ⟨h1, h2⟩ := b.runCircuit_enc order hw hb hext B hB l hF S m v hr h
  refine ⟨fun x hx => C21_decode hw _ _ _ _ (h1 x ((mem_written _ S x).mpr ?_)) hB.dec, fun x hx => funext fun i => h2 x i (Or.inl hx)⟩
  refine hx.imp_right ?_
  rintro ⟨p, hp, e⟩
  exact ⟨p.1, List.mem_map_of_mem hp, e⟩

/-- **C75 (from encryption to decryption).** The same when the inputs are fresh encryptions. -/
theorem C75_circuit_fresh (order : BootstrapOrder) (hw : 3 ≤ w) (hb : b.KeyValid) (hext : b.f = 1 ∨ 2 ≤ b.bc) (B : ℕ)
    (hB : b.Budget order B) (l : List (Instr × Scratch w N k))
    (hF : ∀ p ∈ l, ∀ i q, pabs (phase b.sk (p.2.err i q)) ≤ b.Fe) (S : Set ℕ) (m : Mem (BitVec w)) (v : ℕ → Bool)
    (hr : Reads S (l.map Prod.fst)) (mask : ℕ → Fin (b.ctDim order) → BitVec w) (noise : ℕ → BitVec w)
    (hn : ∀ x ∈ S, wabs (noise x) ≤ B)
    (hm : ∀ x ∈ S, ctOf (b.ctDim order) m x = encryptLWEBool (b.key order) (mask x) (noise x) (v x)) (x : ℕ)
    (hx : x ∈ S ∨ ∃ p ∈ l, p.1.out = x) :
    decryptLWEBool (b.key order) (ctOf (b.ctDim order) (b.runCircuit order l m) x) = runPlain (l.map Prod.fst) v x :=
  (C75_circuit b order hw hb hext B hB l hF S m v hr fun y hy => by
    rw [hm y hy]
    exact (C21_fresh hw _ _ _ _).mono (hn y hy)).1 x hx
end

/-! ### An adder

Ciphertexts `5 i`, `5 i + 1`: the bits of the two numbers; `2`: the carry in; `5 i + 4`: the bits of the sum; `5 n + 2`: the carry out. -/

/-- One digit. -/
def fullAdder (i : ℕ) : List Instr :=
  [.gate .xor (5 * i + 3) (5 * i) (5 * i + 1), .gate .xor (5 * i + 4) (5 * i + 3) (5 * i + 2),
    .gate .and (5 * i) (5 * i) (5 * i + 1), .gate .and (5 * i + 3) (5 * i + 3) (5 * i + 2),
    .gate .or (5 * (i + 1) + 2) (5 * i) (5 * i + 3)]

/-- Ripple-carry addition of two numbers of `n` bits. -/
def adder : ℕ → List Instr
  | 0 => []
  | n + 1 => adder n ++ fullAdder n

/-- The number with bits `v`. -/
def number (v : ℕ → Bool) (n : ℕ) : ℕ := ∑ i ∈ Finset.range n, 2 ^ i * (v i).toNat

/-- The inputs of the adder. -/
def adderIn (n : ℕ) : Set ℕ := {x | x = 2 ∨ ∃ i < n, x = 5 * i ∨ x = 5 * i + 1}

theorem fullAdder_run (i : ℕ) (v : ℕ → Bool) :
    (∀ x, x < 5 * i ∨ 5 * (i + 1) ≤ x ∧ x ≠ 5 * (i + 1) + 2 ∨ x = 5 * i + 2 → runPlain (fullAdder i) v x = v x) ∧
    (runPlain (fullAdder i) v (5 * i + 4)).toNat + 2 * (runPlain (fullAdder i) v (5 * (i + 1) + 2)).toNat
      = (v (5 * i)).toNat + (v (5 * i + 1)).toNat + (v (5 * i + 2)).toNat := by
  constructor
  · intro x hx
    simp only [fullAdder, runPlain]
    rw [if_neg (by omega), if_neg (by omega), if_neg (by omega), if_neg (by omega), if_neg (by omega)]
  · simp only [fullAdder, runPlain]
    have e : ∀ a c : ℕ, a ≠ c → (5 * i + a = 5 * i + c) = False := fun a c h => by simp [h]
    have e1 : ∀ a : ℕ, a ≠ 0 → (5 * i + a = 5 * i) = False := fun a h => by simp [h]
    have e2 : ∀ a : ℕ, a ≠ 0 → (5 * i = 5 * i + a) = False := fun a h => by simp [h]
    have e3 : ∀ a : ℕ, a < 5 → (5 * i + a = 5 * (i + 1) + 2) = False := fun a h => eq_false (by omega)
    simp only [e3 4 (by norm_num), e 4 3 (by norm_num), e1 4 (by norm_num), e 2 3 (by norm_num), e 3 4 (by norm_num),
      e 2 4 (by norm_num), e1 2 (by norm_num), e1 3 (by norm_num), e 1 3 (by norm_num), e 1 4 (by norm_num),
      e2 3 (by norm_num), e2 4 (by norm_num), if_true, if_false, Gate.eval]
    cases v (5 * i) <;> cases v (5 * i + 1) <;> cases v (5 * i + 2) <;> rfl

theorem adder_run (n : ℕ) (v : ℕ → Bool) :
    (∀ x, 5 * n ≤ x → x ≠ 5 * n + 2 → runPlain (adder n) v x = v x) ∧
    number (fun i => runPlain (adder n) v (5 * i + 4)) n + 2 ^ n * (runPlain (adder n) v (5 * n + 2)).toNat
      = number (fun i => v (5 * i)) n + number (fun i => v (5 * i + 1)) n + (v 2).toNat := by
  induction n with
  | zero => exact ⟨fun _ _ _ => rfl, by simp [number, adder, runPlain]⟩
  | succ n ih =>
    obtain ⟨h1, h2⟩ := ih
    rw [adder]
    simp only [runPlain_append]
    obtain ⟨f1, f2⟩ := fullAdder_run n (runPlain (adder n) v)
    constructor
    · intro x hx hx2
      rw [f1 x (Or.inr (Or.inl ⟨hx, hx2⟩)), h1 x (by omega) (by omega)]
    · rw [h1 (5 * n) (by omega) (by omega), h1 (5 * n + 1) (by omega) (by omega)] at f2
      have hlow : number (fun i => runPlain (fullAdder n) (runPlain (adder n) v) (5 * i + 4)) n
          = number (fun i => runPlain (adder n) v (5 * i + 4)) n := by
        refine Finset.sum_congr rfl fun i hi => ?_
        have hi' := Finset.mem_range.mp hi
        show _ * (runPlain (fullAdder n) (runPlain (adder n) v) (5 * i + 4)).toNat = _
        rw [f1 (5 * i + 4) (Or.inl (by omega))]
      have hs : ∀ u : ℕ → Bool, number u (n + 1) = number u n + 2 ^ n * (u n).toNat := fun u => Finset.sum_range_succ _ _
      rw [hs, hs, hs, hlow, pow_succ]
      have f3 := congrArg (fun z => 2 ^ n * z) f2
      linarith

theorem adder_reads (n : ℕ) : ∀ S : Set ℕ, adderIn n ⊆ S → Reads S (adder n) ∧ 5 * n + 2 ∈ written S (adder n) := by
  induction n with
  | zero => intro S h; exact ⟨trivial, h (Or.inl rfl)⟩
  | succ n ih =>
    intro S h
    have hsub : adderIn n ⊆ S := fun x hx => h (by
      rcases hx with hx | ⟨i, hi, hx⟩
      · exact Or.inl hx
      · exact Or.inr ⟨i, by omega, hx⟩)
    obtain ⟨h1, h2⟩ := ih S hsub
    have ha : 5 * n ∈ written S (adder n) := (mem_written _ _ _).mpr (Or.inl (h (Or.inr ⟨n, by omega, Or.inl rfl⟩)))
    have hc : 5 * n + 1 ∈ written S (adder n) := (mem_written _ _ _).mpr (Or.inl (h (Or.inr ⟨n, by omega, Or.inr rfl⟩)))
    rw [adder, reads_append]
    refine ⟨⟨h1, ?_⟩, ?_⟩
    · simp [fullAdder, Reads, ha, hc, h2]
    · rw [mem_written]
      exact Or.inr ⟨.gate .or (5 * (n + 1) + 2) (5 * n) (5 * n + 3), by simp [fullAdder], rfl⟩

theorem adder_out (n i : ℕ) (hi : i < n) : ∃ p ∈ adder n, p.out = 5 * i + 4 := by
  induction n with
  | zero => omega
  | succ n ih =>
    rcases Nat.lt_succ_iff_lt_or_eq.mp hi with h | h
    · obtain ⟨p, h1, h2⟩ := ih h
      exact ⟨p, List.mem_append_left _ h1, h2⟩
    · subst h
      exact ⟨.gate .xor (5 * i + 4) (5 * i + 3) (5 * i + 2), List.mem_append_right _ (by simp [fullAdder]), rfl⟩

section
variable {w N k : ℕ} [NeZero N] (b : Boot w N k)

/-- **C75 (addition).** Two encrypted numbers of any number of bits, added by gates: the decrypted sum and carry are the sum of the
numbers and the carry. -/
theorem C75_adder (order : BootstrapOrder) (hw : 3 ≤ w) (hb : b.KeyValid) (hext : b.f = 1 ∨ 2 ≤ b.bc) (B : ℕ)
    (hB : b.Budget order B) (n : ℕ) (l : List (Instr × Scratch w N k)) (hl : l.map Prod.fst = adder n)
    (hF : ∀ p ∈ l, ∀ i q, pabs (phase b.sk (p.2.err i q)) ≤ b.Fe) (m : Mem (BitVec w)) (v : ℕ → Bool)
    (h : EncAll (b.key order) (adderIn n) m v B) :
    let d := fun x => decryptLWEBool (b.key order) (ctOf (b.ctDim order) (b.runCircuit order l m) x)
    number (fun i => d (5 * i + 4)) n + 2 ^ n * (d (5 * n + 2)).toNat
      = number (fun i => v (5 * i)) n + number (fun i => v (5 * i + 1)) n + (v 2).toNat := by
  intro d
  obtain ⟨hr1, hr2⟩ := adder_reads n (adderIn n) subset_rfl
  have hd := (C75_circuit b order hw hb hext B hB l hF (adderIn n) m v (hl ▸ hr1) h).1
  have hout : ∀ x, (∃ p ∈ adder n, p.out = x) → ∃ p ∈ l, p.1.out = x := by
    rintro x ⟨p, hp, e⟩
    rw [← hl] at hp
    obtain ⟨q, hq, rfl⟩ := List.mem_map.mp hp
    exact ⟨q, hq, e⟩
  have hc : d (5 * n + 2) = runPlain (adder n) v (5 * n + 2) := by
    rw [← hl]
    exact hd _ (((mem_written _ _ _).mp hr2).imp_right (hout _))
  have hs : number (fun i => d (5 * i + 4)) n = number (fun i => runPlain (adder n) v (5 * i + 4)) n := by
    refine Finset.sum_congr rfl fun i hi => ?_
    rw [← hl]
    exact congrArg (fun z : Bool => 2 ^ i * z.toNat) (hd _ (Or.inr (hout _ (adder_out n i (Finset.mem_range.mp hi)))))
  rw [hc, hs]
  exact (adder_run n v).2
end
/-- The budget of `exBoot`: noise up to 2^58, in both orders. -/
theorem exBoot_budget (N : ℕ) [NeZero N] (hN : N = 2048) (brMask ksMask brNoise ksNoise) (order : BootstrapOrder) :
    (exBoot N brMask ksMask brNoise ksNoise).Budget order (2 ^ 58) := by
  set b := exBoot N brMask ksMask brNoise ksNoise
  have hw : weight (3 * 200) (fun i => i % 3 == 1) = 200 := by decide +kernel
  have hNq : (N : ℚ) = 2048 := by exact_mod_cast hN
  have hks : b.ksOut ≤ 2 ^ 57 := by
    show ksBound (⟨16, 4, 8⟩ : GadgetParams 64) (1 * N - 3 * 200) (2 ^ 40) ≤ _
    rw [hN]
    decide +kernel
  have hbr : b.brOut ≤ 2 ^ 50 := by
    show 200 * (3 * (2 * ((2 ^ (64 - 4 * 10) / 2) * (1 + 1 * N) + (1 + 1) * (4 * (N * (1024 / 2 * 2 ^ 10))))) + 2 ^ 20) ≤ _
    rw [hN]
    norm_num
  have hsw : switchErr N ≤ 1 := by unfold switchErr; rw [hNq]; norm_num
  have hS : (1 + (weight (3 * 200) (fun i => i % 3 == 1) : ℚ)) * switchErr (1 * N) + ((extShift 1 : ℕ) : ℚ) ≤ 201 := by
    rw [hw, Nat.one_mul]
    have : ((extShift 1 : ℕ) : ℚ) = 0 := by simp [extShift]
    rw [this]
    have := mul_le_mul_of_nonneg_left hsw (by norm_num : (0:ℚ) ≤ 201)
    norm_num at this ⊢
    linarith
  have hix : b.indexErr order ≤ 2 ^ 57 * (2 * 2048) / 2 ^ 64 + 201 := by
    have hks' : (b.ksOut : ℚ) ≤ 2 ^ 57 := by exact_mod_cast hks
    cases order
    · show (b.ksOut : ℚ) * (2 * (1 * N : ℕ)) / 2 ^ 64 + (1 + (weight (3 * 200) (fun i => i % 3 == 1) : ℚ)) * switchErr (1 * N)
        + ((extShift 1 : ℕ) : ℚ) ≤ _
      rw [add_assoc]
      refine add_le_add ?_ hS
      rw [Nat.one_mul, hNq]
      gcongr
    · show (1 + (weight (3 * 200) (fun i => i % 3 == 1) : ℚ)) * switchErr (1 * N) + ((extShift 1 : ℕ) : ℚ) ≤ _
      refine hS.trans ?_
      norm_num
  refine ⟨?_, by norm_num, fun g => ?_⟩
  · cases order
    · exact hbr.trans (by norm_num)
    · exact (Nat.add_le_add hbr hks).trans (by norm_num)
  · show g.gain * _ * (2 * ((1 * N : ℕ) : ℚ)) / 2 ^ 64 + _ < g.margin * ((1 * N : ℕ) : ℚ)
    rw [Nat.one_mul, hNq]
    refine lt_of_le_of_lt (add_le_add_right hix _) ?_
    cases g <;> norm_num [Gate.gain, Gate.margin]

/-- With `exBoot`, 32-bit numbers encrypted with noise up to 2^58 are added with 160 gates; here with exact transforms and arbitrary
old contents of the buffers. -/
example (N : ℕ) [NeZero N] (hN : N = 2048) (brMask ksMask brNoise ksNoise)
    (h1 : ∀ j i l, pabs (brNoise j i l) ≤ 2 ^ 10) (h2 : ∀ i j, wabs (ksNoise i j) ≤ 2 ^ 40) (order : BootstrapOrder)
    (old : ℕ → Poly N (BitVec 64)) (buf : ℕ → BitVec 64) (m : Mem (BitVec 64)) (v : ℕ → Bool) :
    let b := exBoot N brMask ksMask brNoise ksNoise
    EncAll (b.key order) (adderIn 32) m v (2 ^ 58) →
    let d := fun x => decryptLWEBool (b.key order) (ctOf (b.ctDim order)
      (b.runCircuit order ((adder 32).map fun i => (i, ⟨fun _ _ => 0, old, buf⟩)) m) x)
    number (fun i => d (5 * i + 4)) 32 + 2 ^ 32 * (d (5 * 32 + 2)).toNat
      = number (fun i => v (5 * i)) 32 + number (fun i => v (5 * i + 1)) 32 + (v 2).toNat := by
  intro b h
  refine C75_adder b order (by norm_num) (exBoot_valid N hN _ _ _ _ h1 h2).toKeyValid (Or.inl rfl) (2 ^ 58)
    (exBoot_budget N hN _ _ _ _ order) 32 _ (by rw [List.map_map]; exact List.map_id _) (fun p hp i q => ?_) m v h
  obtain ⟨i, -, rfl⟩ := List.mem_map.mp hp
  have h0 : pabs (0 : Poly N (BitVec 64)) = 0 := (polyNorm N 64).zero
  show pabs (phase b.sk 0) ≤ _
  rw [phase_zero, h0]; exact Nat.zero_le _

example : (adder 32).length = 160 := by decide +kernel

/-- `3 + 1` with two bits: sum `0`, carry `1`. -/
example : let r := runPlain (adder 2) fun x => x == 0 || x == 5 || x == 1
    number (fun i => r (5 * i + 4)) 2 = 0 ∧ r 12 = true := by decide +kernel
/-! ### The comparison of the package example

`ExampleBinaryEvaluator` compares two numbers bit by bit.  Ciphertext 0 is `ctOut`, 1 is `ctXNOR`, `2 i + 2` and `2 i + 3` are `ct0[i]`
and `ct1[i]`. -/

/-- The comparison of numbers of `n + 1` bits.  tfhe/binary_tfhe_test.go:154-159. -/
def comparison : ℕ → List Instr
  | 0 => [.gate .xnor 0 2 3]
  | n + 1 => comparison n ++ [.gate .xnor 1 (2 * (n + 1) + 2) (2 * (n + 1) + 3), .gate .and 0 1 0]

/-- The ciphertexts of the two numbers. -/
def comparisonIn (n : ℕ) : Set ℕ := {x | 2 ≤ x ∧ x ≤ 2 * n + 3}

theorem comparison_run (n : ℕ) (v : ℕ → Bool) :
    (∀ x, 2 ≤ x → runPlain (comparison n) v x = v x) ∧
    (runPlain (comparison n) v 0 = true ↔ ∀ i ≤ n, v (2 * i + 2) = v (2 * i + 3)) := by
  induction n with
  | zero =>
    constructor
    · intro x hx
      simp only [comparison, runPlain]
      rw [if_neg (by omega)]
    · simp [comparison, runPlain, Gate.eval]
  | succ n ih =>
    obtain ⟨h1, h2⟩ := ih
    rw [comparison]
    simp only [runPlain_append, runPlain]
    constructor
    · intro x hx
      rw [if_neg (by omega), if_neg (by omega), h1 x hx]
    · have e : ¬(0 = 1) := by norm_num
      simp only [if_true, e, if_false, Gate.eval, Bool.and_eq_true, beq_iff_eq]
      rw [h1 _ (by omega), h1 _ (by omega), h2]
      constructor
      · rintro ⟨h3, h4⟩ i hi
        rcases Nat.le_succ_iff.mp hi with h | h
        · exact h4 i h
        · subst h; exact h3
      · exact fun h => ⟨h _ le_rfl, fun i hi => h i (Nat.le_succ_of_le hi)⟩

theorem comparison_reads (n : ℕ) :
    ∀ S : Set ℕ, comparisonIn n ⊆ S → Reads S (comparison n) ∧ 0 ∈ written S (comparison n) := by
  induction n with
  | zero =>
    intro S h
    have h2 : 2 ∈ S := h ⟨by norm_num, by norm_num⟩
    have h3 : 3 ∈ S := h ⟨by norm_num, by norm_num⟩
    exact ⟨⟨h2, h3, trivial⟩, Or.inl rfl⟩
  | succ n ih =>
    intro S h
    obtain ⟨h1, h2⟩ := ih S fun x hx => h ⟨hx.1, by have := hx.2; omega⟩
    have ha : 2 * (n + 1) + 2 ∈ written S (comparison n) := (mem_written _ _ _).mpr (Or.inl (h ⟨by omega, by omega⟩))
    have hc : 2 * (n + 1) + 3 ∈ written S (comparison n) := (mem_written _ _ _).mpr (Or.inl (h ⟨by omega, by omega⟩))
    rw [comparison, reads_append]
    refine ⟨⟨h1, ha, hc, ?_, ?_, trivial⟩, ?_⟩
    · exact Or.inl rfl
    · exact Or.inr h2
    · rw [mem_written]
      exact Or.inr ⟨.gate .and 0 1 0, by simp, rfl⟩

theorem bits_eq (n : ℕ) (x y : ℤ) :
    (∀ i < n, intBit x i = intBit y i) ↔ x % 2 ^ n = y % 2 ^ n := by
  rw [← ofBits_intBit, ← ofBits_intBit, Int.natCast_inj]
  constructor
  · intro h
    congr 1
    funext i
    exact h i i.2
  · intro h i hi
    have := congrArg (fun z => Nat.testBit z i) h
    simpa [Nat.testBit_ofBits_lt _ _ hi] using this

section
variable {w N k : ℕ} [NeZero N] (b : Boot w N k)

/-- **C75 (comparison).** The program of the package example, for any number of bits: two numbers encrypted with `EncryptLWEBits` give
an encryption of `true` exactly when they agree in these bits. -/
theorem C75_comparison (order : BootstrapOrder) (hw : 3 ≤ w) (hb : b.KeyValid) (hext : b.f = 1 ∨ 2 ≤ b.bc) (B : ℕ)
    (hB : b.Budget order B) (n : ℕ) (l : List (Instr × Scratch w N k)) (hl : l.map Prod.fst = comparison n)
    (hF : ∀ p ∈ l, ∀ i q, pabs (phase b.sk (p.2.err i q)) ≤ b.Fe) (m : Mem (BitVec w)) (x y : BitVec 64)
    (mask0 mask1 : ℕ → Fin (b.ctDim order) → BitVec w) (noise0 noise1 : ℕ → BitVec w)
    (hn0 : ∀ i, wabs (noise0 i) ≤ B) (hn1 : ∀ i, wabs (noise1 i) ≤ B)
    (h0 : ∀ i (hi : i < (encryptLWEBits (b.key order) mask0 noise0 (n + 1) 0 x).length),
      ctOf (b.ctDim order) m (2 * i + 2) = (encryptLWEBits (b.key order) mask0 noise0 (n + 1) 0 x)[i])
    (h1 : ∀ i (hi : i < (encryptLWEBits (b.key order) mask1 noise1 (n + 1) 0 y).length),
      ctOf (b.ctDim order) m (2 * i + 3) = (encryptLWEBits (b.key order) mask1 noise1 (n + 1) 0 y)[i]) :
    decryptLWEBool (b.key order) (ctOf (b.ctDim order) (b.runCircuit order l m) 0)
      = decide (x.toInt % 2 ^ (n + 1) = y.toInt % 2 ^ (n + 1)) := by
  set v : ℕ → Bool := fun z => if z % 2 = 0 then intBit x.toInt (z / 2 - 1) else intBit y.toInt (z / 2 - 1)
  have hv0 : ∀ i, v (2 * i + 2) = intBit x.toInt i := fun i => by
    show (if (2 * i + 2) % 2 = 0 then intBit x.toInt ((2 * i + 2) / 2 - 1) else _) = _
    rw [if_pos (by omega), show (2 * i + 2) / 2 - 1 = i by omega]
  have hv1 : ∀ i, v (2 * i + 3) = intBit y.toInt i := fun i => by
    show (if (2 * i + 3) % 2 = 0 then _ else intBit y.toInt ((2 * i + 3) / 2 - 1)) = _
    rw [if_neg (by omega), show (2 * i + 3) / 2 - 1 = i by omega]
  obtain ⟨hr1, hr2⟩ := comparison_reads n (comparisonIn n) subset_rfl
  have henc : EncAll (b.key order) (comparisonIn n) m v B := by
    rintro z ⟨hz1, hz2⟩
    obtain ⟨i, hi, rfl | rfl⟩ : ∃ i, i < n + 1 ∧ (z = 2 * i + 2 ∨ z = 2 * i + 3) := ⟨z / 2 - 1, by omega, by omega⟩
    · have hlen := (encryptLWEBits_length (b.key order) mask0 noise0 (n + 1) 0 x).symm ▸ hi
      rw [hv0, h0 i hlen]
      exact (C22_encryptBits hw _ _ _ _ _ i hlen).mono (hn0 i)
    · have hlen := (encryptLWEBits_length (b.key order) mask1 noise1 (n + 1) 0 y).symm ▸ hi
      rw [hv1, h1 i hlen]
      exact (C22_encryptBits hw _ _ _ _ _ i hlen).mono (hn1 i)
  have hd := (C75_circuit b order hw hb hext B hB l hF (comparisonIn n) m v (hl ▸ hr1) henc).1 0 (by
    refine ((mem_written _ _ _).mp hr2).imp_right ?_
    rintro ⟨p, hp, e⟩
    rw [← hl] at hp
    obtain ⟨q, hq, rfl⟩ := List.mem_map.mp hp
    exact ⟨q, hq, e⟩)
  rw [hd, hl, Bool.eq_iff_iff, (comparison_run n v).2, decide_eq_true_eq, ← bits_eq]
  simp only [hv0, hv1, Nat.lt_succ_iff]
end

/-- `exBoot` compares 16-bit numbers in both orders; the memory holds the encryptions. -/
example (N : ℕ) [NeZero N] (hN : N = 2048) (brMask ksMask brNoise ksNoise)
    (h1 : ∀ j i l, pabs (brNoise j i l) ≤ 2 ^ 10) (h2 : ∀ i j, wabs (ksNoise i j) ≤ 2 ^ 40) (order : BootstrapOrder)
    (old : ℕ → Poly N (BitVec 64)) (buf : ℕ → BitVec 64) (x y : BitVec 64) (noise : ℕ → BitVec 64)
    (hn : ∀ i, wabs (noise i) ≤ 2 ^ 58) :
    let b := exBoot N brMask ksMask brNoise ksNoise
    ∀ (mask : ℕ → Fin (b.ctDim order) → BitVec 64),
    let c0 := encryptLWEBits (b.key order) mask noise 16 0 x
    let c1 := encryptLWEBits (b.key order) mask noise 16 0 y
    let m : Mem (BitVec 64) := fun v t =>
      if h : t < b.ctDim order + 1 then (if v % 2 = 0 then c0 else c1).getD (v / 2 - 1) 0 ⟨t, h⟩ else 0
    decryptLWEBool (b.key order) (ctOf (b.ctDim order)
      (b.runCircuit order ((comparison 15).map fun i => (i, ⟨fun _ _ => 0, old, buf⟩)) m) 0)
      = decide (x.toInt % 2 ^ 16 = y.toInt % 2 ^ 16) := by
  intro b mask c0 c1 m
  refine C75_comparison b order (by norm_num) (exBoot_valid N hN _ _ _ _ h1 h2).toKeyValid (Or.inl rfl) (2 ^ 58)
    (exBoot_budget N hN _ _ _ _ order) 15 _ (by rw [List.map_map]; exact List.map_id _) (fun p hp i q => ?_) m x y mask mask noise
    noise hn hn (fun i hi => ?_) (fun i hi => ?_)
  · obtain ⟨i, -, rfl⟩ := List.mem_map.mp hp
    have h0 : pabs (0 : Poly N (BitVec 64)) = 0 := (polyNorm N 64).zero
    show pabs (phase b.sk 0) ≤ _
    rw [phase_zero, h0]; exact Nat.zero_le _
  · have hi' : i < c0.length := hi
    have e : (2 * i + 2) / 2 - 1 = i := by omega
    funext t
    refine (dif_pos t.2).trans ?_
    show (if (2 * i + 2) % 2 = 0 then c0 else c1).getD ((2 * i + 2) / 2 - 1) 0 t = c0[i] t
    rw [if_pos (by omega), e, List.getD_eq_getElem _ _ hi']
  · have hi' : i < c1.length := hi
    have e : (2 * i + 3) / 2 - 1 = i := by omega
    funext t
    refine (dif_pos t.2).trans ?_
    show (if (2 * i + 3) % 2 = 0 then c0 else c1).getD ((2 * i + 3) / 2 - 1) 0 t = c1[i] t
    rw [if_neg (by omega), e, List.getD_eq_getElem _ _ hi']

/-! ### Functions one after another -/

section
variable {w N k : ℕ} [NeZero N] (b : Boot w N k)

/-- One call of `BootstrapFunc`: the function, the old contents of the table, the output and the buffers, the Fourier errors. -/
structure FuncCall (w N k : ℕ) where
  F : ℕ → BitVec 64
  raw : List (BitVec w)
  s : Scratch w N k
  out : ℕ → BitVec w

/-- Each call bootstraps the output of the one before. -/
def Boot.runFuncs (order : BootstrapOrder) : List (FuncCall w N k) → (ℕ → BitVec w) → Option (ℕ → BitVec w)
  | [], ct => some ct
  | c :: l, ct => (b.run order c.raw c.s.err c.s.old c.s.buf c.out ct c.F).bind (Boot.runFuncs order l)

/-- The functions on plain numbers modulo `p`. -/
def plainFuncs (w p : ℕ) : List (ℕ → BitVec 64) → ℕ → ℕ
  | [], m => m
  | F :: l, m => plainFuncs w p l (((F m).setWidth w).toNat % p)

theorem encodeLWECustom_eq {w : ℕ} (x : BitVec 64) (p s : BitVec w) (hp : p ≠ 0) :
    encodeLWECustom x p s = BitVec.ofNat w ((x.setWidth w).toNat % p.toNat * s.toNat) := by
  unfold encodeLWECustom
  simp only [hp, ne_eq, not_false_eq_true, if_true]
  apply BitVec.eq_of_toNat_eq
  rw [BitVec.toNat_mul, BitVec.toNat_umod, BitVec.toNat_ofNat]

/-- The noise budget of function bootstrapping. -/
structure Boot.FuncBudget (order : BootstrapOrder) (B : ℕ) : Prop where
  out : b.outNoise order ≤ B
  dec : (B : ℚ) + b.p.toNat + 2 ^ w / 2 ^ 50 < (b.s.toNat : ℚ) / 2
  index : (b.inNoise order B : ℚ) * (2 * (b.f * N : ℕ)) / 2 ^ w + b.window ≤ (b.f * N : ℕ) / (2 * b.p.toNat)

theorem Boot.inNoise_mono (order : BootstrapOrder) {E E' : ℕ} (h : E ≤ E') : b.inNoise order E ≤ b.inNoise order E' := by
  cases order
  · exact Nat.add_le_add_right h _
  · exact h

/-- **C75 (functions).** Any number of functions, each bootstrapped on the output of the one before: nothing panics, and the result
decrypts to the composition on numbers modulo the message modulus. -/
theorem C75_functions (order : BootstrapOrder) (hb : b.Valid) (hext : b.f = 1 ∨ 2 ≤ b.bc) (B : ℕ) (hB : b.FuncBudget order B)
    (l : List (FuncCall w N k)) :
    (∀ c ∈ l, c.raw.length = b.f * N ∧ ∀ i q, pabs (phase b.sk (c.s.err i q)) ≤ b.Fe) →
    ∀ (ct : ℕ → BitVec w) (m : ℕ), m < b.p.toNat → ∀ e : BitVec w, wabs e ≤ B →
    phase (lweKeyOf w (b.ctDim order) b.lk) (fun t => ct t) = BitVec.ofNat w (m * b.s.toNat) + e →
    ∃ res, b.runFuncs order l ct = some res ∧
      decodeLWECustom (decryptLWEPhase (lweKeyOf w (b.ctDim order) b.lk) (fun t => res t)) b.p b.s
        = some (plainFuncs w b.p.toNat (l.map FuncCall.F) m : ℤ) := by
  have hp0 : 0 < b.p.toNat := by
    rcases Nat.eq_zero_or_pos b.p.toNat with h0 | h0
    · exact absurd (BitVec.eq_of_toNat_eq (by simpa using h0)) hb.p0
    · exact h0
  induction l with
  | nil =>
    intro _ ct m hm e he h
    refine ⟨ct, rfl, ?_⟩
    have hx : ((BitVec.ofNat 64 m).setWidth w).toNat % b.p.toNat = m := by
      have h52 := hb.p52
      have h1 : m < 2 ^ w := hm.trans b.p.isLt
      have h2 : m < 2 ^ 64 := by
        have : b.p.toNat ≤ 2 ^ 64 := by omega
        omega
      rw [BitVec.toNat_setWidth, BitVec.toNat_ofNat, Nat.mod_eq_of_lt h2, Nat.mod_eq_of_lt h1, Nat.mod_eq_of_lt hm]
    have := C05_decrypt_of_phase hb.w1 (lweKeyOf w (b.ctDim order) b.lk) (fun t => ct t) (BitVec.ofNat 64 m) b.p b.s hb.p0 hb.scale
      e.toInt (by rw [h, BitVec.ofInt_toInt, encodeLWECustom_eq _ _ _ hb.p0, hx]) (by
        have e1 : |(e.toInt : ℚ)| = (wabs e : ℚ) := by unfold wabs; rw [Nat.cast_natAbs, Int.cast_abs]
        rw [e1]
        have : (wabs e : ℚ) ≤ B := by exact_mod_cast he
        have := hB.dec
        linarith)
    rw [hx] at this
    exact this
  | cons c l ih =>
    intro hl ct m hm e he h
    obtain ⟨hraw, hF⟩ := hl c List.mem_cons_self
    rw [phase_lweKeyOf] at h
    obtain ⟨r1, g1, g2⟩ := C20_phase_partial b order hb hext c.raw hraw c.s.err hF c.s.old c.s.buf c.out ct c.F m hm e h (by
      refine le_trans ?_ hB.index
      have : (b.inNoise order (wabs e) : ℚ) ≤ b.inNoise order B := by exact_mod_cast b.inNoise_mono order he
      gcongr)
    obtain ⟨res, k1, k2⟩ := ih (fun c hc => hl c (List.mem_cons_of_mem _ hc)) r1 _ (Nat.mod_lt _ hp0) _ (g2.trans hB.out) (by
      rw [phase_lweKeyOf, encodeLWECustom_eq _ _ _ hb.p0]; ring)
    refine ⟨res, ?_, k2⟩
    rw [Boot.runFuncs, g1]
    exact k1
end

/-- With `exBoot`, in both orders: three times the successor, from 2 modulo 4, gives 1. -/
example (N : ℕ) [NeZero N] (hN : N = 2048) (brMask ksMask brNoise ksNoise)
    (h1 : ∀ j i l, pabs (brNoise j i l) ≤ 2 ^ 10) (h2 : ∀ i j, wabs (ksNoise i j) ≤ 2 ^ 40) (order : BootstrapOrder)
    (raw : List (BitVec 64)) (hraw : raw.length = N) (old : ℕ → Poly N (BitVec 64)) (buf out ct : ℕ → BitVec 64) (e : BitVec 64)
    (he : wabs e ≤ 2 ^ 50) :
    let b := exBoot N brMask ksMask brNoise ksNoise
    let c : FuncCall 64 N 1 := ⟨fun x => BitVec.ofNat 64 (x + 1), raw, ⟨fun _ _ => 0, old, buf⟩, out⟩
    phase (lweKeyOf 64 (b.ctDim order) b.lk) (fun t => ct t) = BitVec.ofNat 64 (2 * 0x2000000000000000) + e →
    ∃ res, b.runFuncs order [c, c, c] ct = some res ∧
      decodeLWECustom (decryptLWEPhase (lweKeyOf 64 (b.ctDim order) b.lk) (fun t => res t)) 4#64 0x2000000000000000#64 = some 1 := by
  intro b c h
  have hw : weight (3 * 200) (fun i => i % 3 == 1) = 200 := by decide +kernel
  have hNq : (N : ℚ) = 2048 := by exact_mod_cast hN
  have hks : b.ksOut ≤ 2 ^ 57 := by
    show ksBound (⟨16, 4, 8⟩ : GadgetParams 64) (1 * N - 3 * 200) (2 ^ 40) ≤ _
    rw [hN]
    decide +kernel
  have hbr : b.brOut ≤ 2 ^ 50 := by
    show 200 * (3 * (2 * ((2 ^ (64 - 4 * 10) / 2) * (1 + 1 * N) + (1 + 1) * (4 * (N * (1024 / 2 * 2 ^ 10))))) + 2 ^ 20) ≤ _
    rw [hN]
    norm_num
  obtain ⟨B, hB1, hB2, hB3, hB4⟩ : ∃ B : ℕ, 2 ^ 50 ≤ B ∧ b.outNoise order ≤ B ∧ B ≤ 2 ^ 50 + 2 ^ 57 ∧
      b.inNoise order B ≤ 2 ^ 50 + 2 ^ 57 := by
    cases order
    · exact ⟨2 ^ 50, le_rfl, hbr, by norm_num, Nat.add_le_add le_rfl hks⟩
    · exact ⟨2 ^ 50 + 2 ^ 57, by norm_num, Nat.add_le_add hbr hks, le_rfl, le_rfl⟩
  have hbud : b.FuncBudget order B := by
    refine ⟨hB2, ?_, ?_⟩
    · have hB3' : (B : ℚ) ≤ 2 ^ 50 + 2 ^ 57 := by exact_mod_cast hB3
      show _ + ((4 : ℕ) : ℚ) + 2 ^ 64 / 2 ^ 50 < ((0x2000000000000000 : ℕ) : ℚ) / 2
      norm_num
      linarith
    · have hin' : (b.inNoise order B : ℚ) ≤ 2 ^ 50 + 2 ^ 57 := by exact_mod_cast hB4
      unfold Boot.window extShift
      show _ * (2 * ((1 * N : ℕ) : ℚ)) / 2 ^ 64 + _ ≤ ((1 * N : ℕ) : ℚ) / (2 * ((4 : ℕ) : ℚ))
      have hbf : b.f = 1 := rfl
      rw [hbf, if_pos rfl, Nat.one_mul]
      show _ + ((1 + (weight (3 * 200) (fun i => i % 3 == 1) : ℚ)) * switchErr N
        + (N : ℚ) * |(2 : ℚ) ^ 64 - 2 * ((4 : ℕ) : ℚ) * ((0x2000000000000000 : ℕ) : ℚ)| / 2 ^ 64 + ((0 : ℕ) : ℚ) + 1) ≤ _
      rw [hw]
      unfold switchErr
      rw [hNq]
      norm_num
      linarith
  have hplain : plainFuncs 64 4 [c.F, c.F, c.F] 2 = 1 := by
    show plainFuncs 64 4 [fun x => BitVec.ofNat 64 (x + 1), fun x => BitVec.ofNat 64 (x + 1), fun x => BitVec.ofNat 64 (x + 1)] 2 = 1
    decide +kernel
  suffices hs : _ by
    obtain ⟨res, r1, r2⟩ := C75_functions b order (exBoot_valid N hN _ _ _ _ h1 h2) (Or.inl rfl) B hbud [c, c, c] hs ct 2
      (show 2 < 4 by norm_num) e (he.trans hB1) h
    refine ⟨res, r1, r2.trans ?_⟩
    show some ((plainFuncs 64 4 [c.F, c.F, c.F] 2 : ℕ) : ℤ) = some 1
    rw [hplain]; rfl
  intro c' hc
  have hc' : c' = c := by simpa using hc
  subst hc'
  refine ⟨hraw.trans (Nat.one_mul N).symm, fun i q => ?_⟩
  have h0 : pabs (0 : Poly N (BitVec 64)) = 0 := (polyNorm N 64).zero
  show pabs (phase b.sk 0) ≤ _
  rw [phase_zero, h0]; exact Nat.zero_le _
end Tfhe

/-! ### The package `mktfhe` -/

namespace Tfhe.Mk
open Poly

section
variable {w N P : ℕ} [NeZero N] (b : MBoot w N P)

/-- A program on multi-key ciphertexts. -/
def MBoot.runCircuit (order : BootstrapOrder) : List (Instr × MBoot.Bufs w N) → Mem (BitVec w) → Option (Mem (BitVec w))
  | [], m => some m
  | (.gate g out ct0 ct1, s) :: l, m => (b.gate g order s out ct0 ct1 m).bind (MBoot.runCircuit order l)
  | (.not out ct, _) :: l, m => MBoot.runCircuit order l (notTo (P * b.ctDim order) out ct m)

/-- The noise budget of multi-key gates. -/
structure MBoot.Budget (order : BootstrapOrder) (B : ℕ) : Prop where
  out : b.outNoise order ≤ B
  dec : B < 2 ^ (w - 3)
  gates : ∀ g : Gate, g.gain * (B + B) * (2 * N) / 2 ^ w + b.indexErr order < margin g * N

theorem MBoot.runCircuit_enc (order : BootstrapOrder) (hw : 3 ≤ w) (hb : b.KeyValid) (B : ℕ) (hB : b.Budget order B)
    (l : List (Instr × MBoot.Bufs w N)) :
    (∀ p ∈ l, b.BufsOK p.2) → ∀ (S : Set ℕ) (m : Mem (BitVec w)) (v : ℕ → Bool),
      Reads S (l.map Prod.fst) → EncAll (b.key order) S m v B →
      ∃ m', b.runCircuit order l m = some m' ∧
        EncAll (b.key order) (written S (l.map Prod.fst)) m' (runPlain (l.map Prod.fst) v) B ∧
        ∀ x, (∀ p ∈ l, p.1.out ≠ x) → m' x = m x := by
  induction l with
  | nil => intro _ S m v _ h; exact ⟨m, rfl, h, fun _ _ => rfl⟩
  | cons p l ih =>
    intro hF S m v hr h
    have hF' : ∀ p ∈ l, b.BufsOK p.2 := fun q hq => hF q (List.mem_cons_of_mem _ hq)
    obtain ⟨i, s⟩ := p
    cases i with
    | gate g out c0 c1 =>
      obtain ⟨h0, h1, hr'⟩ := hr
      obtain ⟨m1, g1, g2, -, g3⟩ := C34_gate b g order hw hb s (hF _ List.mem_cons_self) out c0 c1 m (v c0) (v c1) B B
        (h c0 h0) (h c1 h1) (hB.gates g)
      obtain ⟨m', r1, r2, r3⟩ := ih hF' (insert out S) m1 _ hr' (h.step out _ (g2.mono hB.out) g3)
      refine ⟨m', ?_, r2, fun x hx => ?_⟩
      · rw [MBoot.runCircuit, g1]; exact r1
      · exact (r3 x fun q hq => hx q (List.mem_cons_of_mem _ hq)).trans
          (funext fun i => g3 x i fun hh => hx _ List.mem_cons_self hh.1.symm)
    | not out c =>
      obtain ⟨h0, hr'⟩ := hr
      have hg := C21_not (b.key order) out c m (v c) B (h c h0)
      obtain ⟨m', r1, r2, r3⟩ := ih hF' (insert out S) _ _ hr' (h.step out _ hg.1 hg.2)
      exact ⟨m', r1, r2, fun x hx => (r3 x fun q hq => hx q (List.mem_cons_of_mem _ hq)).trans
          (funext fun i => hg.2 x i fun hh => hx _ List.mem_cons_self hh.1.symm)⟩

/-- **C75 (mktfhe).** A program of any number of multi-key gates and `NOT`s: no call panics, and every ciphertext that was an input
or was written decrypts, under the keys of all parties, to what the program computes on plain bits. -/
theorem C75_mk_circuit (order : BootstrapOrder) (hw : 3 ≤ w) (hb : b.KeyValid) (B : ℕ) (hB : b.Budget order B)
    (l : List (Instr × MBoot.Bufs w N)) (hF : ∀ p ∈ l, b.BufsOK p.2) (S : Set ℕ) (m : Mem (BitVec w)) (v : ℕ → Bool)
    (hr : Reads S (l.map Prod.fst)) (h : EncAll (b.key order) S m v B)
    {d : Decryptor (Fin (b.ctDim order) → BitVec w)} (hd : Holds P d (b.held order)) :
    ∃ m', b.runCircuit order l m = some m' ∧
      (∀ x, (x ∈ S ∨ ∃ p ∈ l, p.1.out = x) →
        (decryptLWEPhase d (m' x)).map decodeLWEBool = some (runPlain (l.map Prod.fst) v x)) ∧
      ∀ x, (∀ p ∈ l, p.1.out ≠ x) → m' x = m x := by
  obtain ⟨m', h1, h2, h3⟩ := b.runCircuit_enc order hw hb B hB l hF S m v hr h
  refine ⟨m', h1, fun x hx => decrypt_bit b order hw hd x m' _ B (h2 x ((mem_written _ S x).mpr ?_)) hB.dec, h3⟩
  refine hx.imp_right ?_
  rintro ⟨p, hp, e⟩
  exact ⟨p.1, List.mem_map_of_mem hp, e⟩
end

section
variable {bytes N : ℕ} [NeZero N] {c : Parties bytes N} {prng : List (BitVec 8) → ℕ → BitVec 8} {seed : List (BitVec 8)}

/-- **C75 (mktfhe, from the seed).** The same for parties that made their keys alone from one seed. -/
theorem C75_mk_circuit_seed (hc : c.ParamsOK) (h : c.Made prng seed) (order : BootstrapOrder) (B : ℕ)
    (hB : c.boot.Budget order B) (l : List (Instr × MBoot.Bufs (8 * bytes) N)) (hF : ∀ p ∈ l, c.boot.BufsOK p.2) (S : Set ℕ)
    (m : Mem (BitVec (8 * bytes))) (v : ℕ → Bool) (hr : Reads S (l.map Prod.fst)) (he : EncAll (c.boot.key order) S m v B)
    {d : Decryptor (Fin (c.boot.ctDim order) → BitVec (8 * bytes))} (hd : Holds c.sp.P d (c.held order)) :
    ∃ m', c.boot.runCircuit order l m = some m' ∧
      (∀ x, (x ∈ S ∨ ∃ p ∈ l, p.1.out = x) →
        (decryptLWEPhase d (m' x)).map decodeLWEBool = some (runPlain (l.map Prod.fst) v x)) ∧
      ∀ x, (∀ p ∈ l, p.1.out ≠ x) → m' x = m x :=
  C75_mk_circuit c.boot order (by have := hc.bytes_ok; omega) (C74_compatible hc h).toKeyValid B hB l hF S m v hr he
    (Parties.held_holds hc h order hd)
end
/-- With the keys of `exM` and inputs with noise up to 2^57, a program that writes over its inputs: afterwards ciphertext 1 holds
the negated majority of the bits 0, 1, 2. -/
example (N : ℕ) [NeZero N] (hN : N = 64) (r : ExRand N) (hr : r.OK) (order : BootstrapOrder) (x : MBoot.Bufs 64 N)
    (hx : (exM N r).BufsOK x) (m : Mem (BitVec 64)) (y0 y1 y2 : Bool)
    {d : Decryptor (Fin ((exM N r).ctDim order) → BitVec 64)} (hd : Holds 3 d ((exM N r).held order)) :
    let b := exM N r
    EncBit (b.key order) (ctOf (3 * b.ctDim order) m 0) y0 (2 ^ 57) →
    EncBit (b.key order) (ctOf (3 * b.ctDim order) m 1) y1 (2 ^ 57) →
    EncBit (b.key order) (ctOf (3 * b.ctDim order) m 2) y2 (2 ^ 57) →
    ∃ m', b.runCircuit order [(.gate .and 3 0 1, x), (.gate .or 1 0 1, x), (.gate .and 1 1 2, x), (.gate .or 1 1 3, x),
        (.not 1 1, x)] m = some m' ∧
      (decryptLWEPhase d (m' 1)).map decodeLWEBool = some (!((y0 && y1) || (y0 && y2) || (y1 && y2))) := by
  intro b h0 h1 h2
  obtain ⟨hks, ho, hix⟩ := exM_bounds N hN r order
  have hB : b.Budget order (2 ^ 57) := ⟨(by exact_mod_cast ho : b.outNoise order ≤ 2 ^ 51).trans (by norm_num), by norm_num,
    fun g => by
      have hNq : (N : ℚ) = 64 := by exact_mod_cast hN
      refine lt_of_le_of_lt (add_le_add_right hix _) ?_
      rw [hNq]
      cases g <;> norm_num [Gate.gain, margin]⟩
  obtain ⟨m', r1, r2, -⟩ := C75_mk_circuit b order (by norm_num) (exM_valid N hN r hr).toKeyValid (2 ^ 57) hB
    [(.gate .and 3 0 1, x), (.gate .or 1 0 1, x), (.gate .and 1 1 2, x), (.gate .or 1 1 3, x), (.not 1 1, x)]
    (by simpa using hx) {0, 1, 2} m (fun i => if i = 0 then y0 else if i = 1 then y1 else y2) (by simp [Reads]) (by
      intro i hi
      rcases hi with rfl | rfl | rfl
      · exact h0
      · exact h1
      · exact h2) hd
  refine ⟨m', r1, ?_⟩
  rw [r2 1 (Or.inl (by simp))]
  cases y0 <;> cases y1 <;> cases y2 <;> rfl

/-! ### Multi-key functions one after another -/

section
variable {w N P : ℕ} [NeZero N] (b : MBoot w N P)

/-- One call of the multi-key `BootstrapFunc`. -/
structure MFuncCall (w N : ℕ) where
  F : ℕ → BitVec 64
  raw : List (BitVec w)
  s : MBoot.Bufs w N
  out : ℕ → BitVec w

/-- Each call bootstraps the output of the one before. -/
def MBoot.runFuncs (order : BootstrapOrder) : List (MFuncCall w N) → (ℕ → BitVec w) → Option (ℕ → BitVec w)
  | [], ct => some ct
  | c :: l, ct => (b.run order c.s c.raw c.out ct c.F).bind (MBoot.runFuncs order l)

/-- The noise budget of multi-key function bootstrapping. -/
structure MBoot.FuncBudget (order : BootstrapOrder) (B : ℕ) : Prop where
  out : b.outNoise order ≤ B
  dec : (B : ℚ) + b.p.toNat + 2 ^ w / 2 ^ 50 < (b.s.toNat : ℚ) / 2
  index : (b.inNoise order B : ℚ) * (2 * N) / 2 ^ w + b.roundErr + N * |(2 : ℚ) ^ w - 2 * b.p.toNat * b.s.toNat| / 2 ^ w + 1
    ≤ N / (2 * b.p.toNat)

/-- **C75 (multi-key functions).** Any number of functions, each bootstrapped on the output of the one before: nothing panics, and the
result decrypts, under the keys of the known parties, to the composition on numbers modulo the message modulus. -/
theorem C75_mk_functions (order : BootstrapOrder) (hb : b.Valid) (B : ℕ) (hB : b.FuncBudget order B)
    {d : Decryptor (Fin (b.ctDim order) → BitVec w)} (hd : Holds P d (b.held order)) (l : List (MFuncCall w N)) :
    (∀ c ∈ l, c.raw.length = N ∧ b.BufsOK c.s) →
    ∀ (ct : ℕ → BitVec w) (m : ℕ), m < b.p.toNat → ∀ e : BitVec w, wabs e ≤ B →
    decryptLWEPhase d ct = some (BitVec.ofNat w (m * b.s.toNat) + e) →
    ∃ res φ, b.runFuncs order l ct = some res ∧ decryptLWEPhase d res = some φ ∧
      decodeLWECustom φ b.p b.s = some (plainFuncs w b.p.toNat (l.map MFuncCall.F) m : ℤ) := by
  have hp0 : 0 < b.p.toNat := by
    rcases Nat.eq_zero_or_pos b.p.toNat with h0 | h0
    · exact absurd (BitVec.eq_of_toNat_eq (by simpa using h0)) hb.p0
    · exact h0
  induction l with
  | nil =>
    intro _ ct m hm e he h
    refine ⟨ct, _, rfl, h, ?_⟩
    have hx : ((BitVec.ofNat 64 m).setWidth w).toNat % b.p.toNat = m := by
      have h52 := hb.p52
      have h1 : m < 2 ^ w := hm.trans b.p.isLt
      have h2 : m < 2 ^ 64 := by
        have : b.p.toNat ≤ 2 ^ 64 := by omega
        omega
      rw [BitVec.toNat_setWidth, BitVec.toNat_ofNat, Nat.mod_eq_of_lt h2, Nat.mod_eq_of_lt h1, Nat.mod_eq_of_lt hm]
    have e1 : |(e.toInt : ℚ)| = (wabs e : ℚ) := by unfold wabs; rw [Nat.cast_natAbs, Int.cast_abs]
    have e2 : (wabs e : ℚ) ≤ B := by exact_mod_cast he
    have e3 := hB.dec
    have := C03_default hb.w1 (BitVec.ofNat 64 m) b.p b.s hb.p0 hb.scale e.toInt (by rw [e1]; linarith)
    rw [BitVec.ofInt_toInt, encodeLWECustom_eq _ _ _ hb.p0, hx] at this
    exact this
  | cons c l ih =>
    intro hl ct m hm e he h
    obtain ⟨hraw, hF⟩ := hl c List.mem_cons_self
    rw [decrypt_ph b order hd, Option.some.injEq] at h
    obtain ⟨r1, g1, g2, -, -⟩ := C34_phase b order hb c.s hF c.raw hraw c.out ct c.F m hm e h (by
      refine le_trans ?_ hB.index
      have h1 : b.inNoise order (wabs e) ≤ b.inNoise order B := by
        cases order
        · exact Nat.add_le_add_right he _
        · exact he
      have : (b.inNoise order (wabs e) : ℚ) ≤ b.inNoise order B := by exact_mod_cast h1
      gcongr)
    obtain ⟨res, φ, k1, k2, k3⟩ := ih (fun c hc => hl c (List.mem_cons_of_mem _ hc)) r1 _ (Nat.mod_lt _ hp0) _ (g2.trans hB.out) (by
      rw [decrypt_ph b order hd, encodeLWECustom_eq _ _ _ hb.p0, add_sub_cancel])
    refine ⟨res, φ, ?_, k2, k3⟩
    rw [MBoot.runFuncs, g1]
    exact k1
end

/-- With the keys of `exM`: negation modulo 2, five times, from an encryption of 1 with noise up to 2^51. -/
example (N : ℕ) [NeZero N] (hN : N = 64) (r : ExRand N) (hr : r.OK) (order : BootstrapOrder) (x : MBoot.Bufs 64 N)
    (hx : (exM N r).BufsOK x) (raw : List (BitVec 64)) (hraw : raw.length = N) (out ct : ℕ → BitVec 64) (e : BitVec 64)
    (he : wabs e ≤ 2 ^ 51) {d : Decryptor (Fin ((exM N r).ctDim order) → BitVec 64)} (hd : Holds 3 d ((exM N r).held order))
    (hct : decryptLWEPhase d ct = some (BitVec.ofNat 64 (1 * 0x4000000000000000) + e)) :
    let b := exM N r
    let c : MFuncCall 64 N := ⟨fun z => BitVec.ofNat 64 (z + 1), raw, x, out⟩
    ∃ res φ, b.runFuncs order [c, c, c, c, c] ct = some res ∧ decryptLWEPhase d res = some φ ∧
      decodeLWECustom φ 2#64 0x4000000000000000#64 = some 0 := by
  intro b c
  have hNq : (N : ℚ) = 64 := by exact_mod_cast hN
  obtain ⟨hks, ho, -⟩ := exM_bounds N hN r order
  have hbud : b.FuncBudget order (2 ^ 51) := by
    refine ⟨ho, ?_, ?_⟩
    · show (((2 ^ 51 : ℕ) : ℚ)) + ((2 : ℕ) : ℚ) + 2 ^ 64 / 2 ^ 50 < ((0x4000000000000000 : ℕ) : ℚ) / 2
      norm_num
    · have hin : b.inNoise order (2 ^ 51) ≤ 2 ^ 52 := by
        cases order
        · exact (Nat.add_le_add le_rfl hks).trans (by norm_num)
        · show 2 ^ 51 ≤ 2 ^ 52
          norm_num
      have hin' : (b.inNoise order (2 ^ 51) : ℚ) ≤ 2 ^ 52 := by exact_mod_cast hin
      generalize b.inNoise order (2 ^ 51) = I at hin' ⊢
      rw [exM_round]
      show _ * (2 * (N : ℚ)) / 2 ^ 64 + _
        + (N : ℚ) * |(2 : ℚ) ^ 64 - 2 * ((2 : ℕ) : ℚ) * ((0x4000000000000000 : ℕ) : ℚ)| / 2 ^ 64 + 1 ≤ (N : ℚ) / (2 * ((2 : ℕ) : ℚ))
      unfold switchErr
      rw [hNq]
      norm_num
      linarith
  have hplain : plainFuncs 64 2 [c.F, c.F, c.F, c.F, c.F] 1 = 0 := by
    show plainFuncs 64 2 [fun z => BitVec.ofNat 64 (z + 1), fun z => BitVec.ofNat 64 (z + 1), fun z => BitVec.ofNat 64 (z + 1),
      fun z => BitVec.ofNat 64 (z + 1), fun z => BitVec.ofNat 64 (z + 1)] 1 = 0
    decide +kernel
  obtain ⟨res, φ, r1, r2, r3⟩ := C75_mk_functions b order (exM_valid N hN r hr) (2 ^ 51) hbud hd [c, c, c, c, c] (fun c' hc => by
      have hc' : c' = c := by simpa using hc
      subst hc'
      exact ⟨hraw, hx⟩) ct 1 (show 1 < 2 by norm_num) e he hct
  refine ⟨res, φ, r1, r2, r3.trans ?_⟩
  show some ((plainFuncs 64 2 [c.F, c.F, c.F, c.F, c.F] 1 : ℕ) : ℤ) = some 0
  rw [hplain]; rfl
end Tfhe.Mk
