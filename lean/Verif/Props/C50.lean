import Verif.Props.C49
import Verif.Lemma.FootCalls
import Verif.Lemma.ScratchDec
import Mathlib.Algebra.BigOperators.Group.Finset.Basic

/-!
# C50: safe copies are independent

Goroutines make calls, each on its own evaluator: new ones, safe copies, or evaluators with any past.  The
steps are interleaved in any order.  The goroutines share the keys and all memory of the caller, but no
goroutine writes what another one reads or writes.

`C50_interleave`: whenever a goroutine is done, whatever the others have done in the meantime, its outputs
are those of the same calls made alone on a new evaluator.  `C50_progress` and `C50_terminates`: a
goroutine that is not done can go on, and there are no infinite executions.
`C50_sameEvaluator_false`: this fails for two goroutines with the *same* evaluator.

The multi-key `Decryptor` is not like this: `SafeCopy` gives its buffers to the copy.
`C50_decryptor_false`: there is an interleaving of two decryptions, on a decryptor and on its safe copy, with
a wrong result.  `C50_decryptor_partial`: with different buffers, all results are right.
-/
namespace Tfhe.Scratch

variable {w : ℕ} {F : Type}

/-! ### Specification -/

/-- The cells of several slices. -/
def cellsL (vs : List UVec) : Set UCell := {c | ∃ v ∈ vs, c ∈ v.cells}

/-- The words of a key. -/
def keyWords (key : ℕ → ℕ → UVec) : Set UCell := {c | ∃ i j, c ∈ (key i j).cells}

/-- The transformed polynomials of a key. -/
def keyPolys (key : ℕ → ℕ → ℕ → ℕ) : Set UCell := {c | ∃ i j t, c = .f (key i j t)}

/-- The evaluation key. -/
def evalKey (E : Ev w) : Set UCell := {c | ∃ i, c ∈ keyPolys (E.brk i)} ∪ keyWords E.ksk

/-- The outputs of a call. -/
def Call.outs : Call w → Set UCell
  | .decomposeScalar _ out _ => out.cells
  | .decomposePoly _ out _ => cellsL out
  | .keySwitchLWE out _ _ _ _ => out.cells
  | .keySwitchGLWE out _ _ _ _ => cellsL out
  | .gadgetProdLWE _ out _ _ _ => out.cells
  | .gadgetProdGLWE _ out _ _ _ => cellsL out
  | .externalProdLWE _ out _ _ _ => out.cells
  | .externalProdGLWE _ out _ _ _ => cellsL out
  | .cmux out _ _ _ _ => cellsL out
  | .fourierDecompose _ out _ => {c | ∃ a ∈ out, c = .f a}
  | .blindRotate out _ _ => cellsL out
  | .defaultKeySwitch out _ => out.cells
  | .bootstrapLUT out _ _ => out.cells
  | .genLUT out _ _ => cellsL out
  | .bootstrapFunc out _ _ => out.cells

/-- The inputs of a call, with the keys that it uses. -/
def Call.ins (E : Ev w) : Call w → Set UCell
  | .decomposeScalar _ _ _ => ∅
  | .decomposePoly _ _ p => p.cells
  | .keySwitchLWE _ ct _ _ ksk => ct.cells ∪ keyWords ksk
  | .keySwitchGLWE _ ct _ _ ksk => cellsL ct ∪ keyPolys ksk
  | .gadgetProdLWE _ _ _ lev _ => keyWords fun _ => lev
  | .gadgetProdGLWE _ _ _ lev p => p.cells ∪ keyPolys fun _ => lev
  | .externalProdLWE _ _ _ gsw ct => ct.cells ∪ keyWords gsw
  | .externalProdGLWE _ _ _ gsw ct => cellsL ct ∪ keyPolys gsw
  | .cmux _ _ gsw ct0 ct1 => cellsL ct0 ∪ cellsL ct1 ∪ keyPolys gsw
  | .fourierDecompose _ _ p => p.cells
  | .blindRotate _ ct lut => ct.cells ∪ cellsL lut ∪ evalKey E
  | .defaultKeySwitch _ ct => ct.cells ∪ evalKey E
  | .bootstrapLUT _ ct lut => ct.cells ∪ cellsL lut ∪ evalKey E
  | .genLUT _ _ _ => ∅
  | .bootstrapFunc _ ct _ => ct.cells ∪ evalKey E

/-- The outputs of several calls. -/
def writes (cs : List (Call w)) : Set UCell := {x | ∃ c ∈ cs, x ∈ c.outs}

/-- Inputs and outputs of several calls. -/
def touches (E : Ev w) (cs : List (Call w)) : Set UCell := {x | ∃ c ∈ cs, x ∈ c.ins E ∨ x ∈ c.outs}

/-- If the goroutine is done, this is what the calls `cs` do alone on a new evaluator: it has panicked if
they panic, and otherwise the cells that they touch have the values that they leave. -/
def Outcome (O : Ops w F) (E : Ev w) (cs : List (Call w)) (uw : ℕ → BitVec w) (uf : ℕ → F)
    (uw' : ℕ → BitVec w) (uf' : ℕ → F) : Prog w F Unit → Prop
  | .panic => ∃ m, newEvaluator O E uw uf = some m ∧ runAll O E cs m = none
  | .ret _ => ∃ m m', newEvaluator O E uw uf = some m ∧ runAll O E cs m = some ((), m') ∧
      (∀ a, .w a ∈ touches E cs → uw' a = m'.wd (.user a)) ∧ ∀ a, .f a ∈ touches E cs → uf' a = m'.ft (.user a)
  | _ => True

/-- Decryption: the body, plus the products of the keys of the parties with their part of the ciphertext. -/
def phaseSpec (d : Decr w) (c : ℕ → List (BitVec w)) (j : ℕ) : BitVec w :=
  (c 0).getD j 0 + ∑ i ∈ Finset.range d.parties.length, if d.parties.getD i false then d.prod i (c (1 + i)) j else 0

/-! ### Proofs -/

theorem cellsL_vr {S : Set UCell} {vs : List UVec} (h : cellsL vs ⊆ S) : ∀ v ∈ vs.map UVec.vec, VR S v := by
  intro v hv
  obtain ⟨u, hu, rfl⟩ := List.mem_map.mp hv
  exact vr_cells fun c hc => h ⟨u, hu, hc⟩

theorem keyWords_vr {S : Set UCell} {key : ℕ → ℕ → UVec} (h : keyWords key ⊆ S) : KeyW S key :=
  fun i j => vr_cells fun _ hc => h ⟨i, j, hc⟩

theorem keyPolys_mem {S : Set UCell} {key : ℕ → ℕ → ℕ → ℕ} (h : keyPolys key ⊆ S) : KeyF S key :=
  fun i j t => h ⟨i, j, t, rfl⟩

theorem evalKey_keys {S : Set UCell} {E : Ev w} (h : evalKey E ⊆ S) : Keys E S :=
  ⟨fun i => keyPolys_mem fun _ hc => h (.inl ⟨i, hc⟩), keyWords_vr fun _ hc => h (.inr hc)⟩

theorem foot_call (O : Ops w F) (E : Ev w) (c : Call w) : Foot (c.ins E ∪ c.outs) c.outs (c.run O E) Tr := by
  cases c with
  | decomposeScalar g out x => exact foot_decomposeScalarTo (vr_cells fun _ h => .inr h) (vr_cells fun _ h => h)
  | decomposePoly g out p =>
    exact foot_decomposePolyTo (vr_cells fun _ h => .inl h) (cellsL_vr fun _ h => .inr h) (cellsL_vr fun _ h => h)
  | keySwitchLWE out ct g nIn ksk =>
    exact foot_keySwitchLWETo (vr_cells fun _ h => h) (vr_cells fun _ h => .inl (.inl h))
      (keyWords_vr fun _ h => .inl (.inr h))
  | keySwitchGLWE out ct g kIn ksk =>
    exact foot_keySwitchGLWETo (cellsL_vr fun _ h => h) (cellsL_vr fun _ h => .inr h)
      (cellsL_vr fun _ h => .inl (.inl h)) (keyPolys_mem fun _ h => .inl (.inr h))
  | gadgetProdLWE mode out g lev x =>
    exact foot_gadgetProdLWETo (vr_cells fun _ h => h) (vr_cells fun _ h => .inr h)
      fun i => keyWords_vr (key := fun _ => lev) (fun _ h => .inl h) 0 i
  | gadgetProdGLWE mode out g lev p =>
    exact foot_gadgetProdGLWETo (cellsL_vr fun _ h => h) (cellsL_vr fun _ h => .inr h)
      (vr_cells fun _ h => .inl (.inl h)) fun i t => keyPolys_mem (key := fun _ => lev) (fun _ h => .inl (.inr h)) 0 i t
  | externalProdLWE mode out g gsw ct =>
    exact foot_externalProdLWETo (vr_cells fun _ h => h) (vr_cells fun _ h => .inr h)
      (vr_cells fun _ h => .inl (.inl h)) (keyWords_vr fun _ h => .inl (.inr h))
  | externalProdGLWE mode out g gsw ct =>
    exact foot_externalProdGLWETo (cellsL_vr fun _ h => h) (cellsL_vr fun _ h => .inr h)
      (cellsL_vr fun _ h => .inl (.inl h)) (keyPolys_mem fun _ h => .inl (.inr h))
  | cmux out g gsw ct0 ct1 =>
    exact foot_cmuxTo (cellsL_vr fun _ h => h) (cellsL_vr fun _ h => .inr h)
      (cellsL_vr fun _ h => .inl (.inl (.inl h))) (cellsL_vr fun _ h => .inl (.inl (.inr h)))
      (keyPolys_mem fun _ h => .inl (.inr h))
  | fourierDecompose g out p =>
    refine foot_fourierDecomposePolyTo (fun l hl => ?_) (vr_cells fun _ h => .inl h)
    obtain ⟨a, ha, rfl⟩ := List.mem_map.mp hl
    exact inF_user ⟨a, ha, rfl⟩
  | blindRotate out ct lut =>
    exact foot_blindRotateTo (evalKey_keys fun _ h => .inl (.inr h)) (cellsL_vr fun _ h => h)
      (cellsL_vr fun _ h => .inr h) (vr_cells fun _ h => .inl (.inl (.inl h))) (cellsL_vr fun _ h => .inl (.inl (.inr h)))
  | defaultKeySwitch out ct =>
    exact foot_defaultKeySwitchTo (evalKey_keys fun _ h => .inl (.inr h)) (vr_cells fun _ h => h)
      (vr_cells fun _ h => .inr h) (vr_cells fun _ h => .inl (.inl h))
  | bootstrapLUT out ct lut =>
    exact foot_bootstrapLUTTo (evalKey_keys fun _ h => .inl (.inr h)) (vr_cells fun _ h => h)
      (vr_cells fun _ h => .inr h) (vr_cells fun _ h => .inl (.inl (.inl h))) (cellsL_vr fun _ h => .inl (.inl (.inr h)))
  | genLUT out p fn => exact foot_genLUTFullTo (cellsL_vr fun _ h => h)
  | bootstrapFunc out ct fn =>
    exact foot_bootstrapFuncTo (evalKey_keys fun _ h => .inl (.inr h)) (vr_cells fun _ h => h)
      (vr_cells fun _ h => .inr h) (vr_cells fun _ h => .inl (.inl h))

theorem foot_runAll (O : Ops w F) (E : Ev w) : ∀ cs : List (Call w), Foot (touches E cs) (writes cs) (runAll O E cs) Tr
  | [] => foot_ret
  | c :: cs => by
    have h : Foot (touches E (c :: cs)) (writes (c :: cs)) (c.run O E) Tr :=
      (foot_call O E c).mono (fun x hx => ⟨c, by simp, hx⟩) (fun x hx => ⟨c, by simp, hx⟩) fun _ h => h
    refine h.bind fun _ _ => (foot_runAll O E cs).mono ?_ ?_ fun _ h => h
    · rintro x ⟨c', hc', hx⟩; exact ⟨c', by simp [hc'], hx⟩
    · rintro x ⟨c', hc', hx⟩; exact ⟨c', by simp [hc'], hx⟩

/-- `C49_call` for several calls. -/
theorem runAll_same (O : Ops w F) (E : Ev w) (hE : 0 < E.br.level) : ∀ cs : List (Call w), (∀ c ∈ cs, CallOk E c) →
    ∀ m m' : Mem w F, Sized E m → Sized E m' → SameUser m m' → SameOutcome (runAll O E cs m) (runAll O E cs m')
  | [], _, m, m', _, _, hu => hu
  | c :: cs, hc, m, m', hm, hm', hu => by
    have h := C49_call O E hE c (hc c (by simp)) m m' hm hm' hu
    have g := grow_call (O := O) (E := E) c
    unfold runAll
    rw [run_bind, run_bind]
    cases e : c.run O E m with
    | none =>
      cases e' : c.run O E m' with
      | none => trivial
      | some r => rw [e, e'] at h; exact h.elim
    | some r =>
      cases e' : c.run O E m' with
      | none => rw [e, e'] at h; exact h.elim
      | some r' =>
        rw [e, e'] at h
        have g1 := grow_le g e
        have g2 := grow_le g e'
        exact runAll_same O E hE cs (fun c h => hc c (by simp [h])) r.2 r'.2 ⟨hm.c.trans g1.1, hm.p.trans g1.2⟩
          ⟨hm'.c.trans g2.1, hm'.p.trans g2.2⟩ h

theorem decSum_eq (d : Decr w) (c : ℕ → List (BitVec w)) (j : ℕ) : ∀ (bs : List Bool) (i : ℕ),
    decSum d c j i bs = ∑ q ∈ Finset.range bs.length, if bs.getD q false then d.prod (i + q) (c (1 + (i + q))) j else 0
  | [], _ => rfl
  | b :: bs, i => by
    rw [decSum, decSum_eq d c j bs (i + 1), List.length_cons, Finset.sum_range_succ', add_comm]
    congr 1
    · refine Finset.sum_congr rfl fun q _ => ?_
      rw [List.getD_cons_succ, show i + 1 + q = i + (q + 1) by omega]

/-- An execution in a given order: a goroutine that is done makes no step. -/
def sched {ι κ : Type} [DecidableEq ι] [DecidableEq κ] (own : ι → κ) : List ι → Conf ι κ w F → Conf ι κ w F
  | [], c => c
  | i :: is, c => match (c.todo i).step (c.mem.view (own i)) with
    | none => sched own is c
    | some (p, m) => sched own is ⟨Function.update c.todo i p, c.mem.put (own i) m⟩

theorem sched_exec {ι κ : Type} [DecidableEq ι] [DecidableEq κ] (own : ι → κ) : ∀ (is : List ι) (c : Conf ι κ w F),
    Exec own c (sched own is c)
  | [], _ => .refl
  | i :: is, c => by
    unfold sched
    split
    · exact sched_exec own is c
    · exact .head (.mk _ i _ _ (by assumption)) (sched_exec own is _)

/-- Whether a program is done. -/
def Prog.fin {A : Type} : Prog w F A → Bool
  | .ret _ => true
  | _ => false

theorem eq_ret {p : Prog w F Unit} (h : p.fin = true) : p = .ret () := by
  cases p <;> first | rfl | cases h

end Tfhe.Scratch

namespace Tfhe
open Scratch

variable {w : ℕ} {F ι κ : Type} [DecidableEq ι] [DecidableEq κ]

/-- Any number of goroutines, each with its own evaluator and a list of calls, where no goroutine writes what
another one touches: in every execution, at every time, a goroutine that is done has the outcome of its calls
made alone on a new evaluator, and cells that are no outputs have not changed. -/
theorem C50_interleave (O : Ops w F) (E : Ev w) (hE : 0 < E.br.level) (own : ι → κ) (hown : Function.Injective own)
    (cs : ι → List (Call w)) (hc : ∀ i, ∀ c ∈ cs i, CallOk E c)
    (hd : ∀ i j, i ≠ j → Disjoint (writes (cs i)) (touches E (cs j))) (g g' : World κ w F)
    (hg : ∀ i, Reach O E (g.view (own i))) (todo : ι → Prog w F Unit)
    (h : Exec own ⟨fun i => runAll O E (cs i), g⟩ ⟨todo, g'⟩) :
    (∀ i, Outcome O E (cs i) g.uw g.uf g'.uw g'.uf (todo i)) ∧
    (∀ a, (∀ i, .w a ∉ writes (cs i)) → g'.uw a = g.uw a) ∧ ∀ a, (∀ i, .f a ∉ writes (cs i)) → g'.uf a = g.uf a := by
  have hI := inv_exec hown hd (fun i => foot_runAll O E (cs i)) h
  refine ⟨fun i => ?_, hI.wd, hI.ft⟩
  obtain ⟨m, hl, hs⟩ := hI.solo i
  obtain ⟨m0, e0, z0, w0, f0⟩ := C49_new O E g.uw g.uf
  have hsame := runAll_same O E hE (cs i) (hc i) (g.view (own i)) m0 (C49_sized O E _ (hg i)) z0
    ⟨fun a => (w0 a).symm, fun a => (f0 a).symm⟩
  rw [show runAll O E (cs i) (g.view (own i)) = (todo i).run m from hs] at hsame
  cases ht : todo i with
  | panic =>
    rw [ht] at hsame
    refine ⟨m0, e0, ?_⟩
    cases e : runAll O E (cs i) m0 with
    | none => rfl
    | some r => rw [e] at hsame; exact hsame.elim
  | ret u =>
    rw [ht] at hsame
    cases e : runAll O E (cs i) m0 with
    | none => rw [e] at hsame; exact hsame.elim
    | some r =>
      rw [e] at hsame
      refine ⟨m0, r.2, e0, e, fun a ha => ?_, fun a ha => ?_⟩
      · rw [← hsame.wd a, hl.wd (.user a) (by rintro _ ⟨⟩; exact ha)]; rfl
      · rw [← hsame.ft a, hl.ft (.user a) (by rintro _ ⟨⟩; exact ha)]; rfl
  | _ => trivial

/-- A goroutine that is not done can make a step. -/
theorem C50_progress (own : ι → κ) (c : Conf ι κ w F) (i : ι) (h1 : c.todo i ≠ .panic) (h2 : c.todo i ≠ .ret ()) :
    ∃ p m, Step own c ⟨Function.update c.todo i p, c.mem.put (own i) m⟩ := by
  have : ∃ r, (c.todo i).step (c.mem.view (own i)) = some r := by
    cases e : c.todo i <;> first | exact ⟨_, rfl⟩ | exact absurd e h1 | exact absurd e h2
  obtain ⟨⟨p, m⟩, e⟩ := this
  exact ⟨p, m, .mk _ i p m e⟩

/-- There are no infinite executions. -/
theorem C50_terminates [Fintype ι] (own : ι → κ) (f : ℕ → Conf ι κ w F) : ¬ ∀ n, Step own (f n) (f (n + 1)) := by
  intro h
  exact (wellFounded_iff_isEmpty_descending_chain.mp (wf_step own)).elim ⟨f, h⟩

/-- Decryptors with different buffers: in every execution, a goroutine that is done has the right result. -/
theorem C50_decryptor_partial (own : ι → κ) (hown : Function.Injective own) (d : ι → Decr w) (out : ι → UVec)
    (ct : ι → ℕ → UVec) (hok : ∀ i, DecOk (d i) (out i) (ct i))
    (hd : ∀ i j, i ≠ j → Disjoint ((d i).writes (out i)) ((d j).touches (out j) (ct j))) (g g' : World κ w F)
    (todo : ι → Prog w F Unit) (h : Exec own ⟨fun i => decryptPhaseTo (d i) (out i) (ct i), g⟩ ⟨todo, g'⟩) (i : ι) :
    todo i ≠ .panic ∧ (todo i = .ret () → ∀ j, j < (d i).N →
      g'.uw ((out i).off + j) = phaseSpec (d i) (fun q => (ct i q).words g.uw) j) := by
  have hI := inv_exec hown hd (fun i => foot_decryptPhaseTo (d i) (out i) (ct i)) h
  obtain ⟨m, hl, hs⟩ := hI.solo i
  obtain ⟨m', e, hm'⟩ := run_decryptPhaseTo (hok i) (g.view (own i))
  rw [show decryptPhaseTo (d i) (out i) (ct i) (g.view (own i)) = (todo i).run m from hs] at e
  refine ⟨fun hp => ?_, fun hr j hj => ?_⟩
  · rw [hp] at e; cases e
  · rw [hr] at e
    cases e
    have hw : inW ((d i).touches (out i) (ct i)) (.user ((out i).off + j)) := by
      rintro _ ⟨⟩
      exact .inl (.inr ⟨j, by rw [(hok i).outL]; exact hj, rfl⟩)
    have h1 : g'.uw ((out i).off + j) = m.u ((out i).off + j) := (hl.wd _ hw).symm
    rw [h1, hm' j hj, decSum_eq]
    unfold phaseSpec
    have h0 : ((ct i 0).words g.uw).getD j 0 = g.uw ((ct i 0).off + j) := by
      unfold UVec.words
      rw [List.getD_eq_getElem?_getD, List.getElem?_map, List.getElem?_range (by rw [(hok i).ctL 0 (by omega)]; exact hj)]
      rfl
    rw [h0]
    simp only [zero_add]
    rfl

/-! ### Examples -/

namespace C50ex

/-- A product of a number with a gadget ciphertext. -/
def prod (b : Bool) : Call 8 := .gadgetProdLWE .set (if b then ⟨50, 3⟩ else ⟨60, 3⟩) (C49ex.g 2) (fun i => ⟨3 * (i % 2), 3⟩)
  (if b then 0x93 else 0x2C)

/-- The memory of the caller. -/
def uw (a : ℕ) : BitVec 8 := (37 * a + 11 : ℕ)

/-- An evaluator. -/
def ev : Scratch.Mem 8 (List (BitVec 8)) := (newEvaluator C49ex.O (C49ex.E 1 1) uw fun _ => []).getD (newMem C49ex.O uw fun _ => [])

/-- Two evaluators. -/
def g : World Bool 8 (List (BitVec 8)) := ⟨uw, fun _ => [], fun _ => ev⟩

/-- One evaluator. -/
def g1 : World Unit 8 (List (BitVec 8)) := ⟨uw, fun _ => [], fun _ => ev⟩

/-- Both goroutines make their steps in turn. -/
def turns (n : ℕ) : List Bool := (List.range n).flatMap fun _ => [true, false]

/-- What is left to do. -/
def start (b : Bool) : Prog 8 (List (BitVec 8)) Unit := runAll C49ex.O (C49ex.E 1 1) [prod b]

/-- The results of the calls alone. -/
def alone (b : Bool) : Option (List (BitVec 8)) :=
  (newEvaluator C49ex.O (C49ex.E 1 1) uw fun _ => []).bind fun m => (runAll C49ex.O (C49ex.E 1 1) [prod b] m).map fun r =>
    (List.range 3).map fun i => r.2.wd (.user ((if b then 50 else 60) + i))

/-- A decryptor for two parties. -/
def d : Decr 8 := ⟨2, [true, true], fun i xs j => (i + 2 : ℕ) * xs.getD j 0, ⟨100, 2⟩, ⟨102, 2⟩⟩

/-- Outputs. -/
def out (b : Bool) : UVec := if b then ⟨50, 2⟩ else ⟨60, 2⟩

/-- Ciphertexts. -/
def ct (b : Bool) (j : ℕ) : UVec := if b then ⟨2 * j, 2⟩ else ⟨20 + 2 * j, 2⟩

/-- Decryptors with different buffers. -/
def d' (b : Bool) : Decr 8 := if b then d else { d with sub0 := ⟨110, 2⟩, sub1 := ⟨112, 2⟩ }

/-- The end of an execution: whether both are done, and the outputs. -/
def result {κ : Type} (n : ℕ) (c : Conf Bool κ 8 (List (BitVec 8))) : Bool × List (BitVec 8) × List (BitVec 8) :=
  ((c.todo true).fin && (c.todo false).fin, (List.range n).map fun i => c.mem.uw (50 + i),
    (List.range n).map fun i => c.mem.uw (60 + i))

theorem reach : Reach C49ex.O (C49ex.E 1 1) ev := by
  obtain ⟨m, e, -⟩ := C49_new C49ex.O (C49ex.E 1 1) uw fun _ => []
  have : ev = m := by unfold ev; rw [e]; rfl
  rw [this]
  exact .new _ _ _ e

theorem view_g (b : Bool) : g.view b = ev := by
  obtain ⟨m, e, z, w0, f0⟩ := C49_new C49ex.O (C49ex.E 1 1) uw fun _ => []
  have h : ev = m := by unfold ev; rw [e]; rfl
  unfold World.view
  simp only [g, h]
  congr 1
  · funext l; cases l <;> first | rfl | exact (w0 _).symm
  · funext l; cases l <;> first | rfl | exact (f0 _).symm

theorem view_g1 : g1.view () = ev := view_g true

theorem ok (b : Bool) : ∀ c ∈ [prod b], CallOk (C49ex.E 1 1) c := by
  intro c hc
  cases List.mem_singleton.mp hc
  trivial

theorem disj (i j : Bool) (h : i ≠ j) : Disjoint (writes [prod i]) (touches (C49ex.E 1 1) [prod j]) := by
  rw [Set.disjoint_left]
  rintro x ⟨c, hc, hw⟩ ⟨c', hc', hx⟩
  cases List.mem_singleton.mp hc
  cases List.mem_singleton.mp hc'
  obtain ⟨a, ha, rfl⟩ := hw
  rcases hx with ⟨q, r, t, ht, hx⟩ | ⟨t, ht, hx⟩
  · have h1 : a < 3 := by cases i <;> exact ha
    have h2 : t < 3 := ht
    have h3 : (if i = true then 50 else 60) + a = 3 * (r % 2) + t := by cases i <;> exact UCell.w.inj hx
    split at h3 <;> omega
  · have h1 : a < 3 := by cases i <;> exact ha
    have h2 : t < 3 := by cases j <;> exact ht
    have h3 : (if i = true then 50 else 60) + a = (if j = true then 50 else 60) + t := by
      cases i <;> cases j <;> exact UCell.w.inj hx
    cases i <;> cases j <;> simp at h h3 <;> omega

theorem decOk (b : Bool) (q : Bool) : DecOk (d' q) (out b) (ct b) := by
  have hdis : ∀ u v : UVec, u.off + u.len ≤ v.off ∨ v.off + v.len ≤ u.off → Disjoint u.cells v.cells := by
    intro u v h
    rw [Set.disjoint_left]
    rintro x ⟨i, hi, rfl⟩ ⟨j, hj, hx⟩
    have := UCell.w.inj hx
    omega
  refine ⟨by cases b <;> cases q <;> rfl, by cases q <;> rfl, by cases q <;> rfl, fun j _ => by cases b <;> cases q <;> rfl,
    hdis _ _ (by cases q <;> decide), fun j hj => hdis _ _ (.inl ?_), fun j hj => hdis _ _ (.inl ?_)⟩ <;>
  · have hj : j ≤ 2 := by cases q <;> exact hj
    cases b <;> cases q <;> simp [ct, d', d] <;> omega

end C50ex

/-- Two goroutines with the same evaluator: `C50_interleave` is false if `own` is not injective. -/
theorem C50_sameEvaluator_false : ¬ ∀ (O : Ops 8 (List (BitVec 8))) (E : Ev 8), 0 < E.br.level → ∀ (own : Bool → Unit)
    (cs : Bool → List (Call 8)), (∀ i, ∀ c ∈ cs i, CallOk E c) →
    (∀ i j, i ≠ j → Disjoint (writes (cs i)) (touches E (cs j))) → ∀ (g g' : World Unit 8 (List (BitVec 8))),
    (∀ i, Reach O E (g.view (own i))) → ∀ todo, Exec own ⟨fun i => runAll O E (cs i), g⟩ ⟨todo, g'⟩ →
    ∀ i, Outcome O E (cs i) g.uw g.uf g'.uw g'.uf (todo i) := by
  intro h
  obtain ⟨⟨todo, g'⟩, hx, e⟩ : ∃ c, Exec (fun _ => ()) ⟨C50ex.start, C50ex.g1⟩ c ∧
      C50ex.result 3 c = (true, [145, 145, 145], [145, 145, 145]) :=
    ⟨_, sched_exec (fun _ => ()) (C50ex.turns 40) _, by decide +kernel⟩
  have ea : C50ex.alone true = some [100, 63, 26] := by decide +kernel
  have h := h C49ex.O (C49ex.E 1 1) (by decide) (fun _ => ()) (fun b => [C50ex.prod b]) C50ex.ok C50ex.disj C50ex.g1 g'
    (fun _ => C50ex.view_g1 ▸ C50ex.reach) todo hx true
  simp only [C50ex.result, Prod.mk.injEq, Bool.and_eq_true] at e
  rw [eq_ret e.1.1] at h
  obtain ⟨m, m', e0, e1, hw, -⟩ := h
  unfold C50ex.alone at ea
  rw [show newEvaluator C49ex.O (C49ex.E 1 1) C50ex.uw (fun _ => []) = some m from e0, Option.bind_some, e1] at ea
  have h0 := hw 50 ⟨_, List.mem_singleton.mpr rfl, .inr ⟨0, by decide, rfl⟩⟩
  have h1 : m'.wd (.user 50) = 100 := (List.cons.inj (Option.some.inj ea)).1
  have h2 : g'.uw 50 = 145 := (List.cons.inj e.2.1).1
  rw [h1, h2] at h0
  revert h0
  decide

/-- Two goroutines, one with a decryptor and one with its safe copy, and disjoint ciphertexts and outputs that
are no buffers: not all results are right. -/
theorem C50_decryptor_false : ¬ ∀ (d : Decr 8) (out : Bool → UVec) (ct : Bool → ℕ → UVec),
    (∀ i, DecOk d (out i) (ct i)) → (∀ i, Disjoint (out i).cells (d.sub0.cells ∪ d.sub1.cells)) →
    (∀ i j, i ≠ j → Disjoint (out i).cells ((out j).cells ∪ {c | ∃ q, q ≤ d.parties.length ∧ c ∈ (ct j q).cells})) →
    ∀ (g g' : World Bool 8 (List (BitVec 8))) (todo : Bool → Prog 8 (List (BitVec 8)) Unit),
    Exec id ⟨fun i => decryptPhaseTo (if i then d else d.safeCopy) (out i) (ct i), g⟩ ⟨todo, g'⟩ →
    ∀ i, todo i = .ret () → ∀ j, j < d.N → g'.uw ((out i).off + j) = phaseSpec d (fun q => (ct i q).words g.uw) j := by
  intro h
  obtain ⟨⟨todo, g'⟩, hx, e⟩ : ∃ c, Exec id ⟨fun i => decryptPhaseTo (if i then C50ex.d else C50ex.d.safeCopy) (C50ex.out i)
      (C50ex.ct i), C50ex.g⟩ c ∧ C50ex.result 2 c = (true, [234, 200], [234, 200]) :=
    ⟨_, sched_exec id (C50ex.turns 100) _, by decide +kernel⟩
  simp only [C50ex.result, Prod.mk.injEq, Bool.and_eq_true] at e
  have h := h C50ex.d C50ex.out C50ex.ct (fun b => C50ex.decOk b true) ?_ ?_ C50ex.g g' todo hx true (eq_ret e.1.1) 0 (by decide)
  · have h2 : g'.uw 50 = 234 := (List.cons.inj e.2.1).1
    rw [show g'.uw ((C50ex.out true).off + 0) = 234 from h2] at h
    revert h
    decide +kernel
  · intro b
    rw [Set.disjoint_left]
    rintro x ⟨i, hi, rfl⟩ (⟨j, hj, hx⟩ | ⟨j, hj, hx⟩) <;> have hx := UCell.w.inj hx <;> cases b <;>
      simp [C50ex.out, C50ex.d] at hi hj hx <;> omega
  · intro b b' hb
    rw [Set.disjoint_left]
    rintro x ⟨i, hi, rfl⟩ (⟨j, hj, hx⟩ | ⟨q, hq, j, hj, hx⟩) <;> have hx := UCell.w.inj hx <;> cases b <;> cases b' <;>
      simp [C50ex.out, C50ex.ct, C50ex.d] at * <;> omega

/-! ### The hypotheses can be met -/

/-- Two goroutines with their own evaluators, step by step in turn: both are done, with the results of the
calls made alone. -/
example : C50ex.result 3 (sched id (C50ex.turns 40) ⟨C50ex.start, C50ex.g⟩) =
    (true, [100, 63, 26], [145, 145, 145]) := by decide +kernel

/-- `C50_interleave` applies to it. -/
example (todo : Bool → Prog 8 (List (BitVec 8)) Unit) (g' : World Bool 8 (List (BitVec 8)))
    (h : Exec id ⟨C50ex.start, C50ex.g⟩ ⟨todo, g'⟩) (i : Bool) :
    Outcome C49ex.O (C49ex.E 1 1) [C50ex.prod i] C50ex.uw (fun _ => []) g'.uw g'.uf (todo i) :=
  (C50_interleave C49ex.O (C49ex.E 1 1) (by decide) id Function.injective_id (fun b => [C50ex.prod b]) C50ex.ok C50ex.disj
    C50ex.g g' (fun b => C50ex.view_g b ▸ C50ex.reach) todo h).1 i

/-- It also applies to an evaluator, with any past, and its safe copy. -/
example (m : Scratch.Mem 8 (List (BitVec 8))) (hm : Reach C49ex.O (C49ex.E 1 1) m)
    (todo : Bool → Prog 8 (List (BitVec 8)) Unit) (g' : World Bool 8 (List (BitVec 8)))
    (h : Exec id ⟨C50ex.start, ⟨fun a => m.wd (.user a), fun a => m.ft (.user a), fun b => if b then m else safeCopy C49ex.O m⟩⟩
      ⟨todo, g'⟩) (i : Bool) :
    Outcome C49ex.O (C49ex.E 1 1) [C50ex.prod i] (fun a => m.wd (.user a)) (fun a => m.ft (.user a)) g'.uw g'.uf (todo i) := by
  refine (C50_interleave C49ex.O (C49ex.E 1 1) (by decide) id Function.injective_id (fun b => [C50ex.prod b]) C50ex.ok
    C50ex.disj _ g' (fun b => ?_) todo h).1 i
  cases b
  · refine .user _ _ (.copy m hm) (fun l hl => ?_) (fun l hl => ?_) rfl rfl rfl <;>
    cases l <;> rfl
  · refine .user _ _ hm (fun l hl => ?_) (fun l hl => ?_) rfl rfl rfl <;>
    cases l <;> rfl

/-- Two decryptors with different buffers, step by step in turn: both results are right. -/
example : C50ex.result 2 (sched id (C50ex.turns 100) ⟨fun i => decryptPhaseTo (C50ex.d' i) (C50ex.out i) (C50ex.ct i), C50ex.g⟩) =
    (true, [146, 112], [234, 200]) ∧
    (List.range 2).map (phaseSpec C50ex.d fun q => (C50ex.ct true q).words C50ex.uw) = [146, 112] := by decide +kernel

/-- `C50_decryptor_partial` applies to them. -/
example (todo : Bool → Prog 8 (List (BitVec 8)) Unit) (g' : World Bool 8 (List (BitVec 8)))
    (h : Exec id ⟨fun i => decryptPhaseTo (C50ex.d' i) (C50ex.out i) (C50ex.ct i), C50ex.g⟩ ⟨todo, g'⟩)
    (i : Bool) (hi : todo i = .ret ()) (j : ℕ) (hj : j < 2) :
    g'.uw ((C50ex.out i).off + j) = phaseSpec (C50ex.d' i) (fun q => (C50ex.ct i q).words C50ex.uw) j := by
  refine (C50_decryptor_partial id Function.injective_id C50ex.d' C50ex.out C50ex.ct (fun b => C50ex.decOk b b) ?_ C50ex.g g'
    todo h i).2 hi j (by cases i <;> exact hj)
  intro b b' hb
  rw [Set.disjoint_left]
  rintro x ((⟨i, hi, rfl⟩ | ⟨i, hi, rfl⟩) | ⟨i, hi, rfl⟩) (((⟨j, hj, hx⟩ | ⟨j, hj, hx⟩) | ⟨j, hj, hx⟩) | ⟨q, hq, j, hj, hx⟩) <;>
    have hx := UCell.w.inj hx <;> cases b <;> cases b' <;>
    simp [C50ex.out, C50ex.ct, C50ex.d, C50ex.d'] at * <;> omega

end Tfhe
