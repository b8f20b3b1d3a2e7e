import Verif.Model.ForkBoot
import Verif.Props.C30
import Verif.Props.C34Gate

/-!
# C71: parallel multi-key bootstrapping and gates

For every schedule of the goroutines, every set of known parties, both bootstrapping orders, all keys, tables, ciphertexts and
old contents of buffers, also when the output is one of the inputs.
-/
namespace Tfhe.Mk
open Tfhe.Fork Finset
variable {w N : ℕ} [NeZero N]
local notation "Pol" => Poly N (BitVec w)

/-- The ciphertext that the order hands to blind rotation. -/
def ParArgs.rotated (x : ParArgs w N) (order : BootstrapOrder) (Gks : Gadget (BitVec w))
    (ksk : ℕ → Option (ℕ → ℕ → Fin (x.bs * x.bc + 1) → BitVec w)) (bufKS ct : ℕ → BitVec w) : ℕ → BitVec w :=
  match order with
  | .ksBr => defaultKeySwitchTo x.P Gks (x.bs * x.bc) N ksk ct bufKS
  | .brKs => ct

/-- The float64 errors of the rotations of a ciphertext. -/
def ParArgs.errAt (x : ParArgs w N) (ct : ℕ → BitVec w) : ℕ → ℕ → ℕ → ℕ → Fin 2 → Pol :=
  fun i j => x.errBR i j fun t => rotateIn (x.bs * x.bc) i ct t

omit [NeZero N] in
theorem reach_of_steps {p : Program (Val w N)} {m0 : Store (Val w N)} {s s' : State (Val w N)} (h : Reach p m0 s)
    (hs : Relation.ReflTransGen (Step p) s s') : Reach p m0 s' := by
  induction hs with
  | refl => exact h
  | tail _ hs ih => exact .step _ _ ih hs

section
variable (x : ParArgs w N) (order : BootstrapOrder) (Gks : Gadget (BitVec w))
  (ksk : ℕ → Option (ℕ → ℕ → Fin (x.bs * x.bc + 1) → BitVec w)) (bufKS bufE : ℕ → BitVec w) (m0 : Store (Val w N))

/-- **C71 (tables).** What `BootstrapLUTParallelTo` leaves in the output is what `BootstrapLUTTo` leaves there, whatever the
schedule. -/
theorem C71_lut (hbs : 0 < x.bs) (hbc : 0 < x.bc) (hL : 0 < x.gacc.level)
    (hg : ∀ j, m0 (.gadget j) = Poly.C N (x.gacc.baseQ j)) (old : ℕ → ℕ → Pol) (out ct : ℕ → BitVec w) (lut : ℕ → Pol)
    (res : ℕ → BitVec w) (h : x.LutReturns order Gks ksk bufKS bufE m0 out ct lut res) :
    bootstrapLUT order x.P x.keys x.gacc x.Gbr x.Gr Gks x.bs x.bc x.brk ksk (x.errAt (x.rotated order Gks ksk bufKS ct)) old x.xs
      bufKS bufE (glweOf m0) out ct lut = some res := by
  cases order with
  | ksBr =>
    obtain ⟨s, h1, h2, rfl⟩ := h
    exact C30_bootstrap_ksBr (x := x.withLUT lut) hbs hbc hL rfl Gks ksk old bufKS bufE out ct
      (setCt m0 (defaultKeySwitchTo x.P Gks (x.bs * x.bc) N ksk ct bufKS)) hg rfl s h1 h2
  | brKs =>
    obtain ⟨s, h1, h2, rfl⟩ := h
    exact C30_bootstrap_brKs (x := x.withLUT lut) hbs hbc hL rfl Gks ksk old bufKS bufE out (setCt m0 ct) hg s h1 h2

/-- Some schedule returns.  By `C30_no_deadlock` and `C30_terminates` all of them do. -/
theorem C71_lut_returns (hbs : 0 < x.bs) (hbc : 0 < x.bc) (hL : 0 < x.gacc.level)
    (hg : ∀ j, m0 (.gadget j) = Poly.C N (x.gacc.baseQ j)) (out ct : ℕ → BitVec w) (lut : ℕ → Pol) :
    ∃ res, x.LutReturns order Gks ksk bufKS bufE m0 out ct lut res := by
  have key : ∀ ct : ℕ → BitVec w, ∃ s, Reach (x.withLUT lut).program (setCt m0 ct) s ∧ s.main = .returned := by
    intro ct
    obtain ⟨s, h1, h2⟩ := C30_completes (x := x.withLUT lut) hbs hbc hL (setCt m0 ct) hg _ .start
    exact ⟨s, reach_of_steps .start h1, h2⟩
  cases order with
  | ksBr =>
    obtain ⟨s, h1, h2⟩ := key (defaultKeySwitchTo x.P Gks (x.bs * x.bc) N ksk ct bufKS)
    exact ⟨_, s, h1, h2, rfl⟩
  | brKs =>
    obtain ⟨s, h1, h2⟩ := key ct
    exact ⟨_, s, h1, h2, rfl⟩

/-- **C71 (functions).** `BootstrapFuncParallelTo` leaves what `BootstrapFuncTo` leaves. -/
theorem C71_func (hbs : 0 < x.bs) (hbc : 0 < x.bc) (hL : 0 < x.gacc.level)
    (hg : ∀ j, m0 (.gadget j) = Poly.C N (x.gacc.baseQ j)) (old : ℕ → ℕ → Pol) (p scale : BitVec w) (raw : List (BitVec w))
    (out ct : ℕ → BitVec w) (F : ℕ → BitVec 64) (res : ℕ → BitVec w)
    (h : x.FuncReturns order Gks ksk p scale raw bufKS bufE m0 out ct F res) :
    bootstrapFunc order x.P x.keys x.gacc x.Gbr x.Gr Gks x.bs x.bc x.brk ksk p scale raw
      (x.errAt (x.rotated order Gks ksk bufKS ct)) old x.xs bufKS bufE (glweOf m0) out ct F = some res := by
  obtain ⟨lut, h1, h2⟩ := h
  unfold bootstrapFunc
  rw [h1]
  exact C71_lut x order Gks ksk bufKS bufE m0 hbs hbc hL hg old out ct (ext0 lut) res h2

/-- It returns whenever the generation of the table does not panic, that is whenever `BootstrapFuncTo` returns. -/
theorem C71_func_returns (hbs : 0 < x.bs) (hbc : 0 < x.bc) (hL : 0 < x.gacc.level)
    (hg : ∀ j, m0 (.gadget j) = Poly.C N (x.gacc.baseQ j)) (old : ℕ → ℕ → Pol) (p scale : BitVec w) (raw : List (BitVec w))
    (out ct : ℕ → BitVec w) (F : ℕ → BitVec 64) (err : ℕ → ℕ → ℕ → ℕ → Fin 2 → Pol)
    (h : (bootstrapFunc order x.P x.keys x.gacc x.Gbr x.Gr Gks x.bs x.bc x.brk ksk p scale raw err old x.xs bufKS bufE
      (glweOf m0) out ct F).isSome) :
    ∃ res, x.FuncReturns order Gks ksk p scale raw bufKS bufE m0 out ct F res := by
  unfold bootstrapFunc at h
  cases hl : genLUTCustom 1 N p scale F raw with
  | none => rw [hl] at h; simp at h
  | some lut =>
    obtain ⟨res, hr⟩ := C71_lut_returns x order Gks ksk bufKS bufE m0 hbs hbc hL hg out ct (ext0 lut)
    exact ⟨res, lut, hl, hr⟩

theorem gateLinearPar_eq (g : Gate) (dim out ct0 ct1 : ℕ) (m : Mem (BitVec w)) :
    gateLinearPar g dim out ct0 ct1 m = gateLinear g dim out ct0 ct1 m := by
  cases g <;> rfl

/-- **C71 (gates).** `ANDParallelTo`, …, `XNORParallelTo` leave in memory what `ANDTo`, …, `XNORTo` leave. -/
theorem C71_gate (g : Gate) (hbs : 0 < x.bs) (hbc : 0 < x.bc) (hL : 0 < x.gacc.level)
    (hg : ∀ j, m0 (.gadget j) = Poly.C N (x.gacc.baseQ j)) (old : ℕ → ℕ → Pol) (out ct0 ct1 : ℕ) (m m' : Mem (BitVec w))
    (h : x.GateReturns g order Gks ksk bufKS bufE m0 out ct0 ct1 m m') :
    gateTo g order x.P x.keys x.gacc x.Gbr x.Gr Gks x.bs x.bc x.brk ksk
      (x.errAt (x.rotated order Gks ksk bufKS (gateLinear g (x.P * defaultLWEDim order (x.bs * x.bc) N) out ct0 ct1 m out))) old
      x.xs bufKS bufE (glweOf m0) out ct0 ct1 m = some m' := by
  obtain ⟨res, h1, rfl⟩ := h
  rw [gateLinearPar_eq] at h1 ⊢
  unfold gateTo
  simp only
  rw [C71_lut x order Gks ksk bufKS bufE m0 hbs hbc hL hg old _ _ (signLUT w N) res h1]
  rfl

theorem C71_gate_returns (g : Gate) (hbs : 0 < x.bs) (hbc : 0 < x.bc) (hL : 0 < x.gacc.level)
    (hg : ∀ j, m0 (.gadget j) = Poly.C N (x.gacc.baseQ j)) (out ct0 ct1 : ℕ) (m : Mem (BitVec w)) :
    ∃ m', x.GateReturns g order Gks ksk bufKS bufE m0 out ct0 ct1 m m' := by
  obtain ⟨res, hr⟩ := C71_lut_returns x order Gks ksk bufKS bufE m0 hbs hbc hL hg
    (gateLinearPar g (x.P * defaultLWEDim order (x.bs * x.bc) N) out ct0 ct1 m out)
    (gateLinearPar g (x.P * defaultLWEDim order (x.bs * x.bc) N) out ct0 ct1 m out) (signLUT w N)
  exact ⟨_, res, hr, rfl⟩
end

/-! ### What the results decrypt to -/

section
variable {P : ℕ} (b : MBoot w N P)

/-- The parallel evaluator with the keys of `b`. -/
def MBoot.par (errBR : ℕ → ℕ → (Fin (b.bs * b.bc + 1) → BitVec w) → ℕ → ℕ → Fin 2 → Pol)
    (scratch : (Fin (b.bs * b.bc + 1) → BitVec w) → Pol → (ℕ → Pol) → ℕ → Pol) (xs : ℕ → ExtArgs Pol) : ParArgs w N where
  P := P
  keys := b.keys
  gacc := b.gacc
  Gbr := polyGadget N b.gbr
  Gr := polyGadget N b.gr
  bs := b.bs
  bc := b.bc
  brk := b.brk
  errBR := errBR
  scratch := scratch
  xs := xs
  lut := fun _ => 0
  out := 0

/-- **C71 (messages).** Whatever the schedule, the result of `BootstrapFuncParallel` on a joint encryption of a message decrypts
to the function of the message. -/
theorem C71_decrypts
    (errBR : ℕ → ℕ → (Fin (b.bs * b.bc + 1) → BitVec w) → ℕ → ℕ → Fin 2 → Pol)
    (scratch : (Fin (b.bs * b.bc + 1) → BitVec w) → Pol → (ℕ → Pol) → ℕ → Pol) (xs : ℕ → ExtArgs Pol)
    (bufKS bufE : ℕ → BitVec w) (m0 : Store (Val w N))
    (order : BootstrapOrder) (hb : b.Valid) (hbs : 0 < b.bs) (hbc : 0 < b.bc) (hL : 0 < b.gacc.level)
    (hg : ∀ j, m0 (.gadget j) = Poly.C N (b.gacc.baseQ j))
    (herr : ∀ i j inp q r, pabs (phase (fun _ : Fin 1 => zOf w N b.lk i) (errBR i j inp q r)) ≤ b.Fe)
    (hext : ∀ i < P, (xs i).Bounded P b.Fa b.Fs b.F)
    (raw : List (BitVec w)) (hraw : raw.length = N) (out ct : ℕ → BitVec w) (f : ℕ → BitVec 64) (message : BitVec 64)
    (e : BitVec w) {d : Decryptor (Fin (b.ctDim order) → BitVec w)} (hd : Holds P d (b.held order))
    (hct : decryptLWEPhase d ct = some (encodeLWECustom message b.p b.s + e))
    (hcond : (b.inNoise order (wabs e) : ℚ) * (2 * N) / 2 ^ w + b.roundErr
      + N * |(2 : ℚ) ^ w - 2 * b.p.toNat * b.s.toNat| / 2 ^ w + 1 ≤ N / (2 * b.p.toNat))
    (hout : (b.outNoise order : ℚ) + b.p.toNat + 2 ^ w / 2 ^ 50 < (b.s.toNat : ℚ) / 2) :
    (∃ res, (b.par errBR scratch xs).FuncReturns order (scalarGadget b.gks) b.ksk b.p b.s raw bufKS bufE m0 out ct f res) ∧
    ∀ res, (b.par errBR scratch xs).FuncReturns order (scalarGadget b.gks) b.ksk b.p b.s raw bufKS bufE m0 out ct f res →
      ∃ φ, decryptLWEPhase d res = some φ ∧ decodeLWECustom φ b.p b.s
        = some ((((f ((message.setWidth w).toNat % b.p.toNat)).setWidth w).toNat % b.p.toNat : ℕ) : ℤ) := by
  let x : ParArgs w N := b.par errBR scratch xs
  let y : MBoot.Bufs w N := ⟨x.errAt (x.rotated order (scalarGadget b.gks) b.ksk bufKS ct), fun _ _ => 0, xs, bufKS, bufE, glweOf m0⟩
  have hy : b.BufsOK y := ⟨fun i j q r => herr i j _ q r, hext⟩
  obtain ⟨res, φ, h1, h2, -, h3⟩ := C34_decrypts b order hb y hy raw hraw out ct f message e hd hd (fun _ _ _ => rfl) hct hcond hout
  refine ⟨C71_func_returns x order (scalarGadget b.gks) b.ksk bufKS bufE m0 hbs hbc hL hg (fun _ _ => 0) b.p b.s raw out ct f
    y.errBR ?_, fun r hr => ⟨φ, ?_, h3⟩⟩
  · have : (b.run order y raw out ct f).isSome := by rw [h1]; rfl
    exact this
  · have := C71_func x order (scalarGadget b.gks) b.ksk bufKS bufE m0 hbs hbc hL hg (fun _ _ => 0) b.p b.s raw out ct f r hr
    have h1' : b.run order y raw out ct f = some r := this
    rw [h1, Option.some.injEq] at h1'
    rw [← h1']; exact h2

/-- **C71 (bits).** Whatever the schedule, a parallel gate writes a joint encryption of the gate's value, and nothing but the
output. -/
theorem C71_gate_correct
    (errBR : ℕ → ℕ → (Fin (b.bs * b.bc + 1) → BitVec w) → ℕ → ℕ → Fin 2 → Pol)
    (scratch : (Fin (b.bs * b.bc + 1) → BitVec w) → Pol → (ℕ → Pol) → ℕ → Pol) (xs : ℕ → ExtArgs Pol)
    (bufKS bufE : ℕ → BitVec w) (m0 : Store (Val w N))
    (g : Gate) (order : BootstrapOrder) (hw : 3 ≤ w) (hb : b.KeyValid) (hbs : 0 < b.bs) (hbc : 0 < b.bc)
    (hL : 0 < b.gacc.level) (hg : ∀ j, m0 (.gadget j) = Poly.C N (b.gacc.baseQ j))
    (herr : ∀ i j inp q r, pabs (phase (fun _ : Fin 1 => zOf w N b.lk i) (errBR i j inp q r)) ≤ b.Fe)
    (hext : ∀ i < P, (xs i).Bounded P b.Fa b.Fs b.F)
    (out ct0 ct1 : ℕ) (m : Mem (BitVec w)) (b0 b1 : Bool) (E0 E1 : ℕ)
    (h0 : EncBit (b.key order) (ctOf (P * b.ctDim order) m ct0) b0 E0)
    (h1 : EncBit (b.key order) (ctOf (P * b.ctDim order) m ct1) b1 E1)
    (hcond : g.gain * (E0 + E1) * (2 * N) / 2 ^ w + b.indexErr order < margin g * N) :
    (∃ m', (b.par errBR scratch xs).GateReturns g order (scalarGadget b.gks) b.ksk bufKS bufE m0 out ct0 ct1 m m') ∧
    ∀ m', (b.par errBR scratch xs).GateReturns g order (scalarGadget b.gks) b.ksk bufKS bufE m0 out ct0 ct1 m m' →
      EncBit (b.key order) (ctOf (P * b.ctDim order) m' out) (g.eval b0 b1) (b.outNoise order) ∧
      (∀ i < P, b.on i = false → ∀ j < b.ctDim order, m' out (i * b.ctDim order + j + 1) = 0) ∧
      ∀ v i, ¬(v = out ∧ i < P * b.ctDim order + 1) → m' v i = m v i := by
  let x : ParArgs w N := b.par errBR scratch xs
  refine ⟨C71_gate_returns x order (scalarGadget b.gks) b.ksk bufKS bufE m0 g hbs hbc hL hg out ct0 ct1 m, fun r hr => ?_⟩
  let y : MBoot.Bufs w N := ⟨x.errAt (x.rotated order (scalarGadget b.gks) b.ksk bufKS
    (gateLinear g (x.P * defaultLWEDim order (x.bs * x.bc) N) out ct0 ct1 m out)), fun _ _ => 0, xs, bufKS, bufE, glweOf m0⟩
  have hy : b.BufsOK y := ⟨fun i j q r => herr i j _ q r, hext⟩
  obtain ⟨m', g1, g2⟩ := C34_gate b g order hw hb y hy out ct0 ct1 m b0 b1 E0 E1 h0 h1 hcond
  have := C71_gate x order (scalarGadget b.gks) b.ksk bufKS bufE m0 g hbs hbc hL hg (fun _ _ => 0) out ct0 ct1 m r hr
  have h1' : b.gate g order y out ct0 ct1 m = some r := this
  rw [g1, Option.some.injEq] at h1'
  rw [← h1']; exact g2
end

/-- With the keys of `exM` (three parties, the second one unknown) all parallel gates are correct in both orders, for inputs with
noise up to 2^57, also when the output is one of the inputs. -/
example (N : ℕ) [NeZero N] (hN : N = 64) (r : ExRand N) (hr : r.OK) (order : BootstrapOrder)
    (bufKS bufE : ℕ → BitVec 64) (m0 : Store (Val 64 N)) (hg : ∀ j, m0 (.gadget j) = Poly.C N (exG.baseQ j))
    (xs : ℕ → ExtArgs (Poly N (BitVec 64))) (hext : ∀ i < 3, (xs i).Bounded 3 (exM N r).Fa (exM N r).Fs (exM N r).F)
    (m : Mem (BitVec 64)) (g : Gate) (y : Bool) :
    let b := exM N r
    EncBit (b.key order) (ctOf (3 * b.ctDim order) m 0) y (2 ^ 57) →
    EncBit (b.key order) (ctOf (3 * b.ctDim order) m 1) true (2 ^ 57) →
    ∃ m', (b.par (fun _ _ _ _ _ _ => 0) (fun _ _ old => old) xs).GateReturns g order (scalarGadget b.gks) b.ksk bufKS bufE m0 1 0 1
        m m' ∧
      EncBit (b.key order) (ctOf (3 * b.ctDim order) m' 1) (g.eval y true) (2 ^ 51) := by
  intro b h0 h1
  obtain ⟨hks, ho, hix⟩ := exM_bounds N hN r order
  obtain ⟨⟨m', g1⟩, g2⟩ := C71_gate_correct b (fun _ _ _ _ _ _ => 0) (fun _ _ old => old) xs bufKS bufE m0 g order (by norm_num)
    (exM_valid N hN r hr).toKeyValid (show 0 < 1 by decide) (show 0 < 2 by decide) (show 0 < 8 by decide) hg
    (fun i j inp q r => by
      have : phase (fun _ : Fin 1 => zOf 64 N b.lk i) (fun _ => (0 : Poly N (BitVec 64))) = 0 := by
        simp [phase]
      show pabs (phase (fun _ : Fin 1 => zOf 64 N b.lk i) (fun _ => (0 : Poly N (BitVec 64)))) ≤ b.Fe
      rw [this]
      exact ((polyNorm N 64).zero).le.trans (Nat.zero_le _)) hext 1 0 1 m y true (2 ^ 57) (2 ^ 57) h0 h1 (by
      have hNq : (N : ℚ) = 64 := by exact_mod_cast hN
      refine lt_of_le_of_lt (add_le_add_right hix _) ?_
      rw [hNq]
      cases g <;> norm_num [Gate.gain, margin])
  obtain ⟨⟨e, g3, g4⟩, -⟩ := g2 m' g1
  exact ⟨m', g1, e, g3.trans (by exact_mod_cast ho), g4⟩
end Tfhe.Mk
