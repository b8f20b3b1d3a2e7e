import Verif.Lemma.DetBoot
import Verif.Lemma.Grow
import Verif.Model.Interleave

/-!
# C49: scratch buffers never leak between calls

The memory of the model has the words and transformed polynomials of the caller and all buffers of the
evaluator.  An *arbitrary* content of the buffers (of sufficient length) stands for an arbitrary past.

`C49_call`: a call from two memories with the same caller memory panics in both or leaves the same
caller memory.  `C49_history`: after every history of calls, with every gadget parameters and every
interleaved changes of the caller memory, a call does what it would do on a new evaluator.

The one exception, `C49_shortPoly_false`: `decomposePolyTo` does not check the rank of its argument, so a
polynomial that is too short is completed with what the last decomposition left in the buffer.
-/
namespace Tfhe.Scratch

variable {w : ℕ} {F : Type}

/-! ### Specification -/

/-- The caller cannot tell the memories apart. -/
structure SameUser (m m' : Mem w F) : Prop where
  wd : ∀ a, m.wd (.user a) = m'.wd (.user a)
  ft : ∀ a, m.ft (.user a) = m'.ft (.user a)

/-- The buffers of the decomposer are long enough for the parameters of the evaluator. -/
structure Sized (E : Ev w) (m : Mem w F) : Prop where
  c : E.ks.level ≤ m.cLen
  p : E.br.level ≤ m.pLen

/-- Polynomials that are decomposed have the rank of the evaluator (or a larger one, which panics); tables
are made for a message modulus that fits the table. -/
def CallOk (E : Ev w) : Call w → Prop
  | .keySwitchGLWE _ ct _ _ _ => ∀ v ∈ ct, E.N ≤ v.len
  | .gadgetProdGLWE _ _ _ _ p => E.N ≤ p.len
  | .externalProdGLWE _ _ _ _ ct => ∀ v ∈ ct, E.N ≤ v.len
  | .fourierDecompose _ _ p => E.N ≤ p.len
  | .genLUT _ p _ => LutOk w (E.f * E.N) p
  | .bootstrapFunc _ _ _ => LutOk w (E.f * E.N) E.modulus.toNat
  | _ => True

/-- Both runs panic, or both succeed and the caller cannot tell the difference. -/
def SameOutcome : Option (Unit × Mem w F) → Option (Unit × Mem w F) → Prop
  | none, none => True
  | some (_, m), some (_, m') => SameUser m m'
  | _, _ => False

/-- The states of an evaluator: new, after a call (any call, well-formed or not, that did not panic), after
the caller has changed its own memory, and a safe copy of another. -/
inductive Reach (O : Ops w F) (E : Ev w) : Mem w F → Prop where
  | new (uw : ℕ → BitVec w) (uf : ℕ → F) (m : Mem w F) : newEvaluator O E uw uf = some m → Reach O E m
  | call (c : Call w) (m m' : Mem w F) : Reach O E m → c.run O E m = some ((), m') → Reach O E m'
  | user (m m' : Mem w F) : Reach O E m → (∀ l, (∀ a, l ≠ .user a) → m'.wd l = m.wd l) →
      (∀ l, (∀ a, l ≠ .user a) → m'.ft l = m.ft l) → m'.cLen = m.cLen → m'.pLen = m.pLen → m'.fpLen = m.fpLen →
      Reach O E m'
  | copy (m : Mem w F) : Reach O E m → Reach O E (safeCopy O m)

/-! ### Proofs -/

/-- What two memories with the same caller memory agree on. -/
def K0 (E : Ev w) : Set Loc :=
  {l | (∃ a, l = .w (.user a)) ∨ (∃ a, l = .f (.user a)) ∨ l = .cl E.ks.level ∨ l = .pl E.br.level}

/-- The memory before the buffers of the decomposer are made. -/
def newMem (O : Ops w F) (uw : ℕ → BitVec w) (uf : ℕ → F) : Mem w F where
  wd := fun l => match l with
    | .user a => uw a
    | _ => 0
  ft := fun l => match l with
    | .user a => uf a
    | _ => O.zero
  cLen := 0
  pLen := 0
  fpLen := 0

theorem scalarBuffer_ok (g : GadgetParams w) (m : Mem w F) :
    ∃ m', scalarBuffer g m = some (⟨.cDcmp, g.level⟩, m') ∧ g.level ≤ m'.cLen ∧ m'.pLen = m.pLen ∧ SameUser m m' := by
  by_cases h : g.level ≤ m.cLen
  · exact ⟨m, by rw [run_scalarBuffer, if_pos h], h, rfl, fun _ => rfl, fun _ => rfl⟩
  · exact ⟨_, (run_scalarBuffer _ _).trans (if_neg h), le_rfl, rfl, fun _ => rfl, fun _ => rfl⟩

theorem polyBuffer_ok (N : ℕ) (g : GadgetParams w) (m : Mem w F) :
    ∃ m', polyBuffer N g m = some ((List.range g.level).map fun j => ⟨.pDcmp j, N⟩, m') ∧ m'.cLen = m.cLen ∧
      g.level ≤ m'.pLen ∧ SameUser m m' := by
  by_cases h : g.level ≤ m.pLen
  · exact ⟨m, by rw [run_polyBuffer, if_pos h], rfl, h, fun _ => rfl, fun _ => rfl⟩
  · exact ⟨_, (run_polyBuffer _ _ _).trans (if_neg h), rfl, le_rfl, fun _ => rfl, fun _ => rfl⟩

theorem fftPolyBuffer_ok (O : Ops w F) (g : GadgetParams w) (m : Mem w F) :
    ∃ m', fftPolyBuffer O g m = some ((List.range g.level).map FLoc.fpDcmp, m') ∧ m'.cLen = m.cLen ∧
      m'.pLen = m.pLen ∧ SameUser m m' := by
  by_cases h : g.level ≤ m.fpLen
  · exact ⟨m, by rw [run_fftPolyBuffer, if_pos h], rfl, rfl, fun _ => rfl, fun _ => rfl⟩
  · exact ⟨_, (run_fftPolyBuffer _ _ _).trans (if_neg h), rfl, rfl, fun _ => rfl, fun _ => rfl⟩

/-- One write to the caller memory. -/
def setUser (m : Mem w F) (a : ℕ) (x : BitVec w) : Mem w F :=
  { m with wd := fun l => if l = .user a then x else m.wd l }

theorem dcmpLoop_append (g : GadgetParams w) : ∀ n u acc, dcmpLoop g n u acc = dcmpLoop g n u [] ++ acc
  | 0, _, _ => rfl
  | n + 1, u, acc => by
    rw [dcmpLoop, dcmpLoop_append g n _ (_ :: acc), dcmpLoop, dcmpLoop_append g n _ [_]]
    simp

theorem dcmpLoop_len (g : GadgetParams w) : ∀ n u acc, (dcmpLoop g n u acc).length = n + 1 + acc.length
  | 0, _, acc => by simp [dcmpLoop]; omega
  | n + 1, u, acc => by rw [dcmpLoop, dcmpLoop_len g n]; simp; omega

/-- The rest of `dcmp`, with `n` iterations to go. -/
def dcmpFrom (g : GadgetParams w) (out : Vec) (n : ℕ) (u : BitVec w) : M w F Unit := do
  let u ← dcmpDown g (fun i => some (out, i)) n u
  let (v, p) ← need (some (out, 0))
  wr v p (u &&& (g.base - 1#w))
  let d ← rd v p
  wr v p (d - ((d &&& (g.base >>> 1)) <<< 1))

theorem setUser_setUser (m : Mem w F) (a : ℕ) (x y : BitVec w) : setUser (setUser m a x) a y = setUser m a y := by
  unfold setUser
  congr 1
  funext l
  by_cases h : l = .user a <;> simp [h]

theorem wr_user (m : Mem w F) (out : UVec) (i : ℕ) (x : BitVec w) (h : i < out.len) :
    (wr out.vec i x : M w F Unit) m = some ((), setUser m (out.off + i) x) := by
  rw [run_wr]; exact if_pos h

theorem rd_set (m : Mem w F) (out : UVec) (i : ℕ) (x : BitVec w) (h : i < out.len) :
    (rd out.vec i : M w F (BitVec w)) (setUser m (out.off + i) x) = some (x, setUser m (out.off + i) x) := by
  rw [run_rd]
  show (if i < out.len then some ((setUser m (out.off + i) x).wd (.user (out.off + i)), setUser m (out.off + i) x)
    else none) = _
  rw [if_pos h]
  simp [setUser]

theorem dcmpFrom_zero (g : GadgetParams w) (out : UVec) (u : BitVec w) (m : Mem w F) (h : 0 < out.len) :
    dcmpFrom g out.vec 0 u m = some ((), setUser m out.off (dcmpDigit g u)) := by
  show (wr out.vec 0 (u &&& (g.base - 1#w)) >>= fun _ => rd out.vec 0 >>= fun d =>
    wr out.vec 0 (d - ((d &&& (g.base >>> 1)) <<< 1)) : M w F Unit) m = _
  rw [run_bind, wr_user m out 0 _ h, Option.bind_some, run_bind, rd_set m out 0 _ h, Option.bind_some,
    wr_user _ out 0 _ h, setUser_setUser]
  rfl

theorem dcmpFrom_succ (g : GadgetParams w) (out : UVec) (n : ℕ) (u : BitVec w) (m : Mem w F) (h : n + 1 < out.len) :
    dcmpFrom g out.vec (n + 1) u m =
      dcmpFrom g out.vec n (dcmpNext g u) (setUser m (out.off + (n + 1)) (dcmpDigit g u)) := by
  have e : ∀ f : BitVec w → M w F Unit, (dcmpDown g (fun i => some (out.vec, i)) (n + 1) u >>= f) m =
      ((wr out.vec (n + 1) (u &&& (g.base - 1#w)) : M w F Unit) m).bind (fun r =>
      ((rd out.vec (n + 1) : M w F (BitVec w)) r.2).bind fun r =>
      ((rd out.vec (n + 1) : M w F (BitVec w)) r.2).bind fun r' =>
      ((wr out.vec (n + 1) (r'.1 - ((r'.1 &&& (g.base >>> 1)) <<< 1)) : M w F Unit) r'.2).bind fun r'' =>
      (dcmpDown g (fun i => some (out.vec, i)) n ((u >>> g.logBase) + (r.1 >>> (g.logBase - 1))) >>= f) r''.2) := by
    intro f
    rw [dcmpDown]
    show ((wr out.vec (n + 1) (u &&& (g.base - 1#w)) >>= fun _ => _) >>= f : M w F Unit) m = _
    simp only [run_bind, Option.bind_assoc]
  unfold dcmpFrom
  rw [e, wr_user _ _ _ _ h, Option.bind_some, rd_set _ _ _ _ h, Option.bind_some, rd_set _ _ _ _ h, Option.bind_some,
    wr_user _ _ _ _ h, Option.bind_some, setUser_setUser]
  rfl

theorem dcmpFrom_ok (g : GadgetParams w) (out : UVec) : ∀ (n : ℕ) (u : BitVec w) (m : Mem w F), n < out.len →
    ∃ m', dcmpFrom g out.vec n u m = some ((), m') ∧
      (∀ j, j ≤ n → some (m'.wd (.user (out.off + j))) = (dcmpLoop g n u [])[j]?) ∧
      (∀ l, (∀ j, j ≤ n → l ≠ .user (out.off + j)) → m'.wd l = m.wd l) ∧ m'.ft = m.ft
  | 0, u, m, h => by
    refine ⟨_, dcmpFrom_zero g out u m h, fun j hj => ?_, fun l hl => ?_, rfl⟩
    · obtain rfl : j = 0 := by omega
      simp [dcmpLoop, setUser]
    · exact if_neg (hl 0 le_rfl)
  | n + 1, u, m, h => by
    obtain ⟨m', e, h1, h2, h3⟩ := dcmpFrom_ok g out n (dcmpNext g u) (setUser m (out.off + (n + 1)) (dcmpDigit g u)) (by omega)
    refine ⟨m', (dcmpFrom_succ g out n u m h).trans e, fun j hj => ?_, fun l hl => ?_, h3⟩
    · rw [dcmpLoop, dcmpLoop_append]
      rcases Nat.lt_or_ge n j with hj' | hj'
      · obtain rfl : j = n + 1 := by omega
        rw [h2 _ (fun i hi hc => by simp only [WLoc.user.injEq] at hc; omega),
          List.getElem?_append_right (by rw [dcmpLoop_len]; simp), dcmpLoop_len]
        simp [setUser]
      · rw [List.getElem?_append_left (by rw [dcmpLoop_len]; simp; omega)]
        exact h1 j hj'
    · rw [h2 l fun j hj => hl j (by omega)]
      exact if_neg (hl (n + 1) le_rfl)

end Tfhe.Scratch

namespace Tfhe
open Scratch

variable {w : ℕ} {F : Type}

/-- A call on any two evaluators with the same parameters and the same caller memory: the same outcome,
whatever is in the buffers. -/
theorem C49_call (O : Ops w F) (E : Ev w) (hE : 0 < E.br.level) (c : Call w) (hc : CallOk E c) (m m' : Scratch.Mem w F)
    (hm : Sized E m) (hm' : Sized E m') (hu : SameUser m m') :
    SameOutcome (c.run O E m) (c.run O E m') := by
  have hA : Agree (K0 E) m m' := by
    rintro l (⟨a, rfl⟩ | ⟨a, rfl⟩ | rfl | rfl)
    · exact ⟨hu.wd a, trivial, trivial⟩
    · exact ⟨hu.ft a, trivial, trivial⟩
    · exact ⟨hm.c, hm'.c⟩
    · exact ⟨hm.p, hm'.p⟩
  have hU : User (K0 E) := ⟨fun a => .inl ⟨a, rfl⟩, fun a => .inr (.inl ⟨a, rfl⟩)⟩
  have hB : Bufs E (K0 E) := ⟨.inr (.inr (.inl rfl)), .inr (.inr (.inr rfl))⟩
  have hL : ∀ xs : List UVec, ∀ v ∈ xs.map UVec.vec, Rd (K0 E) v := by
    intro xs v hv
    obtain ⟨u, -, rfl⟩ := List.mem_map.mp hv
    exact hU.rd u
  have hLN : ∀ xs : List UVec, (∀ v ∈ xs, E.N ≤ v.len) → ∀ v ∈ xs.map UVec.vec, Rd (K0 E) v ∧ E.N ≤ v.len := by
    intro xs hx v hv
    obtain ⟨u, h, rfl⟩ := List.mem_map.mp hv
    exact ⟨hU.rd u, hx u h⟩
  have key : Det (K0 E) (c.run O E) Any := by
    cases c with
    | decomposeScalar g out x => exact (det_decomposeScalarTo (hU.rd out).wr).any
    | decomposePoly g out p => exact (det_decomposePolyTo (hU.rd p) fun v hv => (hL out v hv).wr).any
    | keySwitchLWE out ct g nIn ksk => exact det_keySwitchLWETo hU (hU.rd _) (hU.rd _)
    | keySwitchGLWE out ct g kIn ksk => exact det_keySwitchGLWETo hU (hL out) (hLN ct hc)
    | gadgetProdLWE mode out g lev x => exact det_gadgetProdLWETo hU (hU.rd _)
    | gadgetProdGLWE mode out g lev p => exact det_gadgetProdGLWETo hU (hL out) (hU.rd _) hc
    | externalProdLWE mode out g gsw ct => exact det_externalProdLWETo hU (hU.rd _) (hU.rd _)
    | externalProdGLWE mode out g gsw ct => exact det_externalProdGLWETo hU (hL out) (hLN ct hc)
    | cmux out g gsw ct0 ct1 => exact det_cmuxTo hU (hL out) (hL ct0) (hL ct1)
    | fourierDecompose g out p =>
      refine (det_fourierDecomposePolyTo (hU.rd p) hc fun l hl => ?_).any
      obtain ⟨a, -, rfl⟩ := List.mem_map.mp hl
      exact .inl (hU.ft a)
    | blindRotate out ct lut =>
      exact (det_blindRotateTo hE hU hB (hU.rd _) (hL lut) (fun v hv => (hL out v hv).wr)
        fun v hv => .inr (hL out v hv)).any
    | defaultKeySwitch out ct => exact (det_defaultKeySwitchTo hU hB (hU.rd _) (hU.rd _).wr (.inr (hU.rd _))).any
    | bootstrapLUT out ct lut => exact det_bootstrapLUTTo hE hU hB (hU.rd _) (hL lut) (hU.rd _)
    | genLUT out p fn => exact (det_genLUTFullTo hc fun v hv => (hL out v hv).wr).any
    | bootstrapFunc out ct fn => exact det_bootstrapFuncTo hE hc hU hB (hU.rd _) (hU.rd _)
  rcases key m m' hA with ⟨h1, h2⟩ | ⟨a, m1, m1', K', h1, h2, hK, -, h⟩
  · rw [h1, h2]; trivial
  · rw [h1, h2]
    exact ⟨fun a => (h _ (hK (hU.wd a))).1, fun a => (h _ (hK (hU.ft a))).1⟩

/-- `NewEvaluator` succeeds, keeps the caller memory and makes the buffers long enough. -/
theorem C49_new (O : Ops w F) (E : Ev w) (uw : ℕ → BitVec w) (uf : ℕ → F) :
    ∃ m, newEvaluator O E uw uf = some m ∧ Sized E m ∧ (∀ a, m.wd (.user a) = uw a) ∧ ∀ a, m.ft (.user a) = uf a := by
  obtain ⟨m1, e1, c1, p1, u1⟩ := scalarBuffer_ok E.ks (newMem O uw uf)
  obtain ⟨m2, e2, c2, p2, u2⟩ := polyBuffer_ok E.N E.br m1
  obtain ⟨m3, e3, c3, p3, u3⟩ := fftPolyBuffer_ok O E.br m2
  refine ⟨m3, ?_, ⟨by omega, by omega⟩, fun a => ?_, fun a => ?_⟩
  · show Option.map Prod.snd ((scalarBuffer E.ks >>= fun _ => polyBuffer E.N E.br >>= fun _ => fftPolyBuffer O E.br >>=
      fun _ => pure () : M w F Unit) (newMem O uw uf)) = _
    rw [run_bind, e1, Option.bind_some, run_bind, e2, Option.bind_some, run_bind, e3]
    rfl
  · rw [← u3.wd, ← u2.wd, ← u1.wd]; rfl
  · rw [← u3.ft, ← u2.ft, ← u1.ft]; rfl

/-- In every state of an evaluator the buffers of the decomposer are long enough, even after calls with
other gadget parameters. -/
theorem C49_sized (O : Ops w F) (E : Ev w) (m : Scratch.Mem w F) (h : Reach O E m) : Sized E m := by
  induction h with
  | new uw uf m h =>
    obtain ⟨m', e, hs, -⟩ := C49_new O E uw uf
    rw [e] at h
    cases h; exact hs
  | call c m m' _ hr ih =>
    have hg : Grow (c.run O E) := grow_call c
    have := grow_le hg hr
    exact ⟨ih.c.trans this.1, ih.p.trans this.2⟩
  | user m m' _ _ _ h1 h2 _ ih => exact ⟨h1 ▸ ih.c, h2 ▸ ih.p⟩
  | copy m _ ih => exact ⟨ih.c, ih.p⟩

/-- After every history, a call has the outcome it would have on a new evaluator with the same caller
memory. -/
theorem C49_history (O : Ops w F) (E : Ev w) (hE : 0 < E.br.level) (m : Scratch.Mem w F) (h : Reach O E m) (c : Call w)
    (hc : CallOk E c) :
    ∃ m0, newEvaluator O E (fun a => m.wd (.user a)) (fun a => m.ft (.user a)) = some m0 ∧
      SameOutcome (c.run O E m) (c.run O E m0) := by
  obtain ⟨m0, e, hs, h1, h2⟩ := C49_new O E (fun a => m.wd (.user a)) (fun a => m.ft (.user a))
  exact ⟨m0, e, C49_call O E hE c hc m m0 (C49_sized O E m h) hs ⟨fun a => (h1 a).symm, fun a => (h2 a).symm⟩⟩

/-- `DecomposeScalarTo` into a slice of the caller, from every state: it does not panic, stores the
decomposition of `x` and changes nothing else of the caller. -/
theorem C49_decomposeScalar (O : Ops w F) (E : Ev w) (g : GadgetParams w) (out : UVec) (x : BitVec w) (m : Scratch.Mem w F)
    (hl : 0 < g.level) (ho : g.level ≤ out.len) :
    ∃ m', (Call.decomposeScalar g out x).run O E m = some ((), m') ∧
      (List.range g.level).map (fun j => m'.wd (.user (out.off + j))) = decomposeScalar g x ∧
      (∀ a, (∀ j, j < g.level → a ≠ out.off + j) → m'.wd (.user a) = m.wd (.user a)) ∧
      (∀ a, m'.ft (.user a) = m.ft (.user a)) := by
  obtain ⟨m', e, h1, h2, h3⟩ := dcmpFrom_ok g out (g.level - 1) (divRoundBits x g.logLastBaseQ) m (by omega)
  refine ⟨m', e, ?_, fun a ha => h2 _ fun j hj hc => ha j (by omega) (by simpa using hc), fun a => by rw [h3]⟩
  apply List.ext_getElem?
  intro j
  unfold decomposeScalar
  rcases Nat.lt_or_ge j g.level with hj | hj
  · rw [← h1 j (by omega)]
    simp [hj]
  · rw [List.getElem?_eq_none (by simpa using hj), List.getElem?_eq_none (by rw [dcmpLoop_len]; simp; omega)]

/-! ### Polynomials that are too short, and examples -/

namespace C49ex

/-- Operations for the examples: a transformed polynomial is the list of its coefficients. -/
def O : Ops 8 (List (BitVec 8)) where
  zero := [0, 0]
  fwd := id
  inv x i := x.getD i 0
  invLeft _ := [7, 7]
  mul := List.zipWith (· * ·)
  mulAdd o x y := List.zipWith (· + ·) o (List.zipWith (· * ·) x y)
  mulSub o x y := List.zipWith (· - ·) o (List.zipWith (· * ·) x y)
  sub := List.zipWith (· - ·)
  mono n := [n, n + 1]
  monoSubOne n := [BitVec.ofInt 8 n, BitVec.ofInt 8 (n - 1)]
  monoMul n xs i := xs.getD ((n + i) % 2).toNat 0

/-- Gadget parameters. -/
def g (l : ℕ) : GadgetParams 8 := ⟨4, 2, l⟩

/-- An evaluator with tables of size `2 * f`. -/
def E (f bs : ℕ) : Ev 8 where
  n := 2
  dim := 2
  k := 1
  N := 2
  f := f
  bs := bs
  bc := 2 / bs
  br := g 1
  ks := g 1
  order := .brKs
  modulus := 2
  scale := 64
  brk i t j u := 8 * i + 4 * t + 2 * j + u
  ksk i j := ⟨20 + 3 * i + j, 3⟩

/-- A new evaluator, and the caller memory. -/
def m0 (f bs : ℕ) : Option (Scratch.Mem 8 (List (BitVec 8))) :=
  newEvaluator O (E f bs) (fun a => (37 * a + 11 : ℕ)) fun a => [(5 * a + 1 : ℕ), (3 * a + 2 : ℕ)]

/-- A history of calls. -/
def runs (f bs : ℕ) : List (Call 8) → Option (Scratch.Mem 8 (List (BitVec 8))) → Option (Scratch.Mem 8 (List (BitVec 8)))
  | [], m => m
  | c :: cs, m => runs f bs cs (m.bind fun m => (c.run O (E f bs) m).map Prod.snd)

theorem reach (f bs : ℕ) : ∀ (cs : List (Call 8)) (m : Option (Scratch.Mem 8 (List (BitVec 8)))),
    (∀ x, m = some x → Reach O (E f bs) x) → ∀ y, runs f bs cs m = some y → Reach O (E f bs) y
  | [], m, h, y, e => h y e
  | c :: cs, m, h, y, e => by
    refine reach f bs cs _ (fun x hx => ?_) y e
    rw [Option.bind_eq_some_iff] at hx
    obtain ⟨a, ha, hx⟩ := hx
    rw [Option.map_eq_some_iff] at hx
    obtain ⟨⟨u, b⟩, hb, rfl⟩ := hx
    exact .call c a b (h a ha) hb

/-- Decomposition of a polynomial of full length. -/
def full : Call 8 := .fourierDecompose (g 1) [100] ⟨0, 2⟩
/-- Decomposition of a polynomial of length 1. -/
def short : Call 8 := .fourierDecompose (g 1) [101] ⟨0, 1⟩

/-- The result of `short` after `full`. -/
def after : List (BitVec 8) := [0, 1]
/-- The result of `short` on a new evaluator. -/
def fresh : List (BitVec 8) := [0, 0]

/-- A history with other gadget parameters. -/
def past : List (Call 8) :=
  [full, .keySwitchLWE ⟨70, 3⟩ ⟨0, 6⟩ (g 3) 5 fun i j => ⟨i + j, 3⟩,
   .gadgetProdGLWE .add [⟨80, 2⟩, ⟨82, 2⟩] (g 2) (fun i t => 5 * i + t) ⟨3, 2⟩]

/-- A bootstrap. -/
def boot : Call 8 := .bootstrapFunc ⟨50, 3⟩ ⟨60, 3⟩ fun x => (x : ℕ)

end C49ex

/-- A polynomial that is too short is not rejected: `C49_history` is false without the condition on the call.
The upper coefficients come from an earlier call. -/
theorem C49_shortPoly_false : ¬ ∀ (O : Ops 8 (List (BitVec 8))) (E : Ev 8), 0 < E.br.level → ∀ m, Reach O E m →
    ∀ c : Call 8, ∃ m0, newEvaluator O E (fun a => m.wd (.user a)) (fun a => m.ft (.user a)) = some m0 ∧
      SameOutcome (c.run O E m) (c.run O E m0) := by
  intro h
  have e : (C49ex.runs 1 1 [C49ex.full] (C49ex.m0 1 1)).isSome = true := by decide +kernel
  obtain ⟨m, hm⟩ := Option.isSome_iff_exists.mp e
  have hr := C49ex.reach 1 1 _ _ (fun x hx => .new _ _ _ hx) m hm
  obtain ⟨m0, h0, hs⟩ := h C49ex.O (C49ex.E 1 1) (by decide) m hr C49ex.short
  have e1 : ((C49ex.runs 1 1 [C49ex.full] (C49ex.m0 1 1)).bind fun m =>
      (C49ex.short.run C49ex.O (C49ex.E 1 1) m).map fun r => r.2.ft (.user 101)) = some C49ex.after := by decide +kernel
  have e2 : ((C49ex.runs 1 1 [C49ex.full] (C49ex.m0 1 1)).bind fun m =>
      (newEvaluator C49ex.O (C49ex.E 1 1) (fun a => m.wd (.user a)) (fun a => m.ft (.user a))).bind fun m =>
      (C49ex.short.run C49ex.O (C49ex.E 1 1) m).map fun r => r.2.ft (.user 101)) = some C49ex.fresh := by decide +kernel
  rw [hm, Option.bind_some] at e1 e2
  rw [h0, Option.bind_some] at e2
  rw [Option.map_eq_some_iff] at e1 e2
  obtain ⟨⟨u, a⟩, ha, hau⟩ := e1
  obtain ⟨⟨v, b⟩, hb, hbu⟩ := e2
  rw [ha, hb] at hs
  have hf := hs.ft 101
  rw [hau, hbu] at hf
  revert hf
  decide

/-- The history of the example is possible, and it leaves buffers longer than those of a new evaluator. -/
example : (C49ex.runs 2 1 C49ex.past (C49ex.m0 2 1)).map (fun m => (m.cLen, m.pLen, m.fpLen, m.wd (.cDcmp 2), m.wd (.pDcmp 1 0))) =
    some (3, 2, 2, 1, 0) := by decide +kernel

/-- `C49_history` applies to it, with a bootstrap as the next call. -/
example (m : Scratch.Mem 8 (List (BitVec 8))) (h : C49ex.runs 2 1 C49ex.past (C49ex.m0 2 1) = some m) :
    ∃ m0, newEvaluator C49ex.O (C49ex.E 2 1) (fun a => m.wd (.user a)) (fun a => m.ft (.user a)) = some m0 ∧
      SameOutcome (C49ex.boot.run C49ex.O (C49ex.E 2 1) m) (C49ex.boot.run C49ex.O (C49ex.E 2 1) m0) :=
  C49_history _ _ (by decide) m (C49ex.reach 2 1 _ _ (fun x hx => .new _ _ _ hx) m h) C49ex.boot
    ⟨by decide, by decide, by decide, by decide, by decide⟩

/-- The bootstrap does not panic. -/
example : (C49ex.runs 2 1 [C49ex.boot] (C49ex.m0 2 1)).map (fun m => (List.range 3).map fun i => m.wd (.user (50 + i))) =
    some [227, 178, 246] := by decide +kernel

/-- A decomposition with three levels. -/
example : ∃ m', (Call.decomposeScalar (C49ex.g 3) ⟨40, 4⟩ 0xB7#8).run C49ex.O (C49ex.E 1 1) (newMem C49ex.O (fun _ => 9) fun _ => []) =
      some ((), m') ∧ (List.range 4).map (fun j => m'.wd (.user (40 + j))) = [-1, 0, -2, 9] := by
  obtain ⟨m', e, h1, h2, -⟩ := C49_decomposeScalar C49ex.O (C49ex.E 1 1) (C49ex.g 3) ⟨40, 4⟩ 0xB7#8
    (newMem C49ex.O (fun _ => 9) fun _ => []) (by decide) (by decide)
  have h3 := h2 43 (by decide)
  refine ⟨m', e, ?_⟩
  have h1 : (List.range 3).map (fun j => m'.wd (.user (40 + j))) = [-1, 0, -2] := h1.trans (by decide +kernel)
  rw [List.range_succ, List.map_append, h1]
  simpa [newMem] using h3

end Tfhe
