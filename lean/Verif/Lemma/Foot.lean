import Verif.Model.Interleave
import Verif.Lemma.Run

/-!
# Which memory of the caller a program touches
-/
namespace Tfhe.Scratch

variable {w : ℕ} {F : Type}

/-- A cell of the caller: a word or a transformed polynomial. -/
inductive UCell where
  | w (a : ℕ)
  | f (a : ℕ)
deriving DecidableEq

/-- If `l` belongs to the caller, it is in `R`. -/
def inW (R : Set UCell) (l : WLoc) : Prop := ∀ a, l = .user a → .w a ∈ R

/-- If `l` belongs to the caller, it is in `R`. -/
def inF (R : Set UCell) (l : FLoc) : Prop := ∀ a, l = .user a → .f a ∈ R

/-- Cells of the caller that the program reads are in `R`, those that it writes are in `W`, and a result
satisfies `Q`. -/
def Foot {A : Type} (R W : Set UCell) : Prog w F A → (A → Prop) → Prop
  | .ret a, Q => Q a
  | .panic, _ => True
  | .rd l k, Q => inW R l ∧ ∀ x, Foot R W (k x) Q
  | .wr l _ k, Q => inW W l ∧ Foot R W k Q
  | .rdF l k, Q => inF R l ∧ ∀ x, Foot R W (k x) Q
  | .wrF l _ k, Q => inF W l ∧ Foot R W k Q
  | .lens k, Q => ∀ a b c, Foot R W (k a b c) Q
  | .growC _ k, Q => Foot R W k Q
  | .growP _ k, Q => Foot R W k Q
  | .growF _ _ k, Q => Foot R W k Q

/-- No postcondition. -/
abbrev Tr {A : Type} : A → Prop := fun _ => True

variable {R W : Set UCell}

theorem Foot.bind {A B : Type} {p : M w F A} {f : A → M w F B} {P : A → Prop} {Q : B → Prop} (hp : Foot R W p P)
    (hf : ∀ a, P a → Foot R W (f a) Q) : Foot R W (p >>= f) Q := by
  show Foot R W (Prog.bind p f) Q
  induction p with
  | ret a => exact hf a hp
  | panic => trivial
  | rd l k ih => exact ⟨hp.1, fun x => ih x (hp.2 x)⟩
  | wr l x k ih => exact ⟨hp.1, ih hp.2⟩
  | rdF l k ih => exact ⟨hp.1, fun x => ih x (hp.2 x)⟩
  | wrF l x k ih => exact ⟨hp.1, ih hp.2⟩
  | lens k ih => exact fun a b c => ih a b c (hp a b c)
  | growC n k ih => exact ih hp
  | growP n k ih => exact ih hp
  | growF n z k ih => exact ih hp

theorem Foot.mono {A : Type} {p : M w F A} {R' W' : Set UCell} {P Q : A → Prop} (hp : Foot R W p P) (hR : R ⊆ R')
    (hW : W ⊆ W') (h : ∀ a, P a → Q a) : Foot R' W' p Q := by
  induction p with
  | ret a => exact h a hp
  | panic => trivial
  | rd l k ih => exact ⟨fun a e => hR (hp.1 a e), fun x => ih x (hp.2 x)⟩
  | wr l x k ih => exact ⟨fun a e => hW (hp.1 a e), ih hp.2⟩
  | rdF l k ih => exact ⟨fun a e => hR (hp.1 a e), fun x => ih x (hp.2 x)⟩
  | wrF l x k ih => exact ⟨fun a e => hW (hp.1 a e), ih hp.2⟩
  | lens k ih => exact fun a b c => ih a b c (hp a b c)
  | growC n k ih => exact ih hp
  | growP n k ih => exact ih hp
  | growF n z k ih => exact ih hp

theorem foot_pure {A : Type} {a : A} {Q : A → Prop} (h : Q a) : Foot R W (pure a : M w F A) Q := h

theorem foot_ret {A : Type} {a : A} : Foot R W (pure a : M w F A) Tr := trivial

theorem foot_panic {A : Type} {Q : A → Prop} : Foot R W (panic : M w F A) Q := trivial

theorem foot_loopN {body : ℕ → M w F Unit} (h : ∀ i, Foot R W (body i) Tr) : ∀ n a, Foot R W (loopN body n a) Tr
  | 0, _ => trivial
  | n + 1, a => (h a).bind fun _ _ => foot_loopN h n (a + 1)

theorem foot_forUp {a b : ℕ} {body : ℕ → M w F Unit} (h : ∀ i, Foot R W (body i) Tr) : Foot R W (forUp a b body) Tr :=
  foot_loopN h _ _

/-- The elements of the slice that belong to the caller are in `R`. -/
def VR (R : Set UCell) (v : Vec) : Prop := ∀ i, i < v.len → inW R (v.cell i)

theorem foot_rd {v : Vec} {i : ℕ} (h : VR R v) : Foot R W (rd v i : M w F (BitVec w)) Tr := by
  unfold rd; split
  · exact ⟨h i (by assumption), fun _ => trivial⟩
  · trivial

theorem foot_wr {v : Vec} {i : ℕ} {x : BitVec w} (h : VR W v) : Foot R W (wr v i x : M w F Unit) Tr := by
  unfold wr; split
  · exact ⟨h i (by assumption), trivial⟩
  · trivial

theorem foot_rdList : ∀ (ls : List WLoc), (∀ l ∈ ls, inW R l) → Foot R W (rdList ls : M w F (List (BitVec w))) Tr
  | [], _ => trivial
  | l :: ls, h => ⟨h l (by simp), fun _ => (foot_rdList ls fun l hl => h l (by simp [hl])).bind fun _ _ => trivial⟩

theorem foot_rdAll {v : Vec} (h : VR R v) : Foot R W (rdAll v : M w F (List (BitVec w))) Tr := by
  refine foot_rdList _ fun l hl => ?_
  obtain ⟨i, hi, rfl⟩ := List.mem_map.mp hl
  exact h i (List.mem_range.mp hi)

theorem foot_rdF {l : FLoc} (h : inF R l) : Foot R W (rdF l : M w F F) Tr := ⟨h, fun _ => trivial⟩

theorem foot_wrF {l : FLoc} {x : F} (h : inF W l) : Foot R W (wrF l x : M w F Unit) Tr := ⟨h, trivial⟩

theorem foot_check {b : Bool} : Foot R W (check b : M w F Unit) Tr := by cases b <;> trivial

theorem foot_check' {b : Bool} : Foot R W (check b : M w F Unit) (fun _ => b = true) := by
  cases b
  · trivial
  · exact rfl

theorem foot_need {A : Type} {x : Option A} : Foot R W (need x : M w F A) (fun a => x = some a) := by
  cases x
  · trivial
  · exact rfl

theorem foot_elem {A : Type} {xs : List A} {i : ℕ} : Foot R W (elem xs i : M w F A) (· ∈ xs) :=
  foot_need.mono subset_rfl subset_rfl fun _ h => List.mem_of_getElem? h

/-- The slice is a buffer. -/
def Priv (v : Vec) : Prop := ∀ i a, v.cell i ≠ .user a

theorem Priv.vr {v : Vec} (h : Priv v) : VR R v := fun i _ a e => absurd e (h i a)

theorem foot_scalarBuffer {g : GadgetParams w} : Foot R W (scalarBuffer g : M w F Vec) Priv := by
  intro a b c
  show Foot R W (if _ then _ else _) _
  split <;> exact fun _ _ => nofun

theorem foot_polyBuffer {N : ℕ} {g : GadgetParams w} : Foot R W (polyBuffer N g : M w F (List Vec)) (∀ v ∈ ·, Priv v) := by
  intro a b c
  have : ∀ v ∈ (List.range g.level).map fun j => (⟨.pDcmp j, N⟩ : Vec), Priv v := by
    intro v hv
    obtain ⟨j, -, rfl⟩ := List.mem_map.mp hv
    exact fun _ _ => nofun
  show Foot R W (if _ then _ else _) _
  split <;> exact this

theorem foot_fftPolyBuffer {O : Ops w F} {g : GadgetParams w} :
    Foot R W (fftPolyBuffer O g : M w F (List FLoc)) (∀ l ∈ ·, ∀ a, l ≠ .user a) := by
  intro a b c
  have : ∀ l ∈ (List.range g.level).map FLoc.fpDcmp, ∀ a, l ≠ .user a := by
    intro v hv
    obtain ⟨j, -, rfl⟩ := List.mem_map.mp hv
    exact fun _ => nofun
  show Foot R W (if _ then _ else _) _
  split <;> exact this

theorem foot_sliceScalar {n : ℕ} : Foot R W (sliceScalar n : M w F Vec) Priv := by
  intro a b c
  show Foot R W (if _ then _ else _) _
  split
  · exact fun _ _ => nofun
  · trivial

theorem foot_slicePoly {N n : ℕ} : Foot R W (slicePoly N n : M w F (List Vec)) (∀ v ∈ ·, Priv v) := by
  intro a b c
  show Foot R W (if _ then _ else _) _
  split
  · intro v hv
    obtain ⟨j, -, rfl⟩ := List.mem_map.mp hv
    exact fun _ _ => nofun
  · trivial

attribute [local irreducible] Foot

/-- What a decomposition writes to. -/
def OutR (R : Set UCell) (out : ℕ → Option (Vec × ℕ)) : Prop := ∀ i v p, out i = some (v, p) → VR R v

/-- Goes through a program step by step, and leaves the conditions on slices and cells. -/
macro "foot" : tactic => `(tactic| repeat' (with_reducible first
  | intro _
  | exact foot_ret | exact foot_panic | exact foot_check | exact foot_need | exact foot_elem | exact foot_scalarBuffer
  | exact foot_polyBuffer | exact foot_fftPolyBuffer | exact foot_sliceScalar | exact foot_slicePoly
  | apply foot_rd | apply foot_wr | apply foot_rdAll | apply foot_rdF | apply foot_wrF
  | apply foot_forUp | apply Foot.bind | split))

theorem foot_dcmpDown {g : GadgetParams w} {out : ℕ → Option (Vec × ℕ)} (hR : OutR R out) (hW : OutR W out) :
    ∀ (n : ℕ) (u : BitVec w), Foot R W (dcmpDown g out n u : M w F (BitVec w)) Tr
  | 0, _ => foot_ret
  | n + 1, _ => by
    unfold dcmpDown
    refine foot_need.bind fun a ha => ?_
    obtain ⟨v, p⟩ := a
    exact (foot_wr (hW _ _ _ ha)).bind fun _ _ => (foot_rd (hR _ _ _ ha)).bind fun _ _ =>
      (foot_rd (hR _ _ _ ha)).bind fun _ _ => (foot_wr (hW _ _ _ ha)).bind fun _ _ => foot_dcmpDown hR hW n _

theorem foot_dcmp {g : GadgetParams w} {out : ℕ → Option (Vec × ℕ)} {x : BitVec w} (hR : OutR R out) (hW : OutR W out) :
    Foot R W (dcmp g out x : M w F Unit) Tr := by
  unfold dcmp
  refine (foot_dcmpDown hR hW _ _).bind fun _ _ => foot_need.bind fun a ha => ?_
  obtain ⟨v, p⟩ := a
  exact (foot_wr (hW _ _ _ ha)).bind fun _ _ => (foot_rd (hR _ _ _ ha)).bind fun _ _ => foot_wr (hW _ _ _ ha)

theorem foot_decomposeScalarTo {g : GadgetParams w} {out : Vec} {x : BitVec w} (hR : VR R out) (hW : VR W out) :
    Foot R W (decomposeScalarTo g out x : M w F Unit) Tr :=
  foot_dcmp (fun i v p h => by cases h; exact hR) (fun i v p h => by cases h; exact hW)

theorem foot_decomposePolyTo {g : GadgetParams w} {out : List Vec} {p : Vec} (hp : VR R p) (hR : ∀ v ∈ out, VR R v)
    (hW : ∀ v ∈ out, VR W v) : Foot R W (decomposePolyTo g out p : M w F Unit) Tr := by
  have key : ∀ (S : Set UCell) (i : ℕ), (∀ v ∈ out, VR S v) → OutR S fun j => out[j]?.map fun v => (v, i) := by
    intro S i h j v q e
    dsimp only at e
    cases hj : out[j]? with
    | none => rw [hj] at e; cases e
    | some v' => rw [hj] at e; cases e; exact h _ (List.mem_of_getElem? hj)
  exact foot_forUp fun i => (foot_rd hp).bind fun _ _ => foot_dcmp (key R i hR) (key W i hW)

theorem foot_copyTo {a b : Vec} (ha : VR W a) (hb : VR R b) : Foot R W (copyTo a b : M w F Unit) Tr := by
  unfold copyTo; foot <;> assumption

theorem foot_clear {a : Vec} (ha : VR W a) : Foot R W (clear a : M w F Unit) Tr := by
  unfold clear; foot; assumption

theorem foot_scalarMulTo {a b : Vec} {c : BitVec w} (ha : VR W a) (hb : VR R b) :
    Foot R W (scalarMulTo a b c : M w F Unit) Tr := by
  unfold scalarMulTo; foot <;> assumption

theorem foot_scalarMulAddTo {a b : Vec} {c : BitVec w} (ha : VR W a) (ha' : VR R a) (hb : VR R b) :
    Foot R W (scalarMulAddTo a b c : M w F Unit) Tr := by
  unfold scalarMulAddTo; foot <;> assumption

theorem foot_scalarMulSubTo {a b : Vec} {c : BitVec w} (ha : VR W a) (ha' : VR R a) (hb : VR R b) :
    Foot R W (scalarMulSubTo a b c : M w F Unit) Tr := by
  unfold scalarMulSubTo; foot <;> assumption

theorem foot_addTo {a b c : Vec} (ha : VR W a) (hb : VR R b) (hc : VR R c) : Foot R W (addTo a b c : M w F Unit) Tr := by
  unfold addTo; foot <;> assumption

theorem foot_subTo {a b c : Vec} (ha : VR W a) (hb : VR R b) (hc : VR R c) : Foot R W (subTo a b c : M w F Unit) Tr := by
  unfold subTo; foot <;> assumption

section
variable {O : Ops w F} {E : Ev w}

theorem foot_fwdFFTTo {l : FLoc} {p : Vec} (hl : inF W l) (hp : VR R p) : Foot R W (fwdFFTTo O E l p) Tr := by
  unfold fwdFFTTo; foot <;> assumption

theorem foot_invFFTToUnsafe {l : FLoc} {p : Vec} (hl : inF R l) (hl' : inF W l) (hp : VR W p) :
    Foot R W (invFFTToUnsafe O E p l) Tr := by
  unfold invFFTToUnsafe; foot <;> assumption

theorem foot_invFFTAddToUnsafe {l : FLoc} {p : Vec} (hl : inF R l) (hl' : inF W l) (hp : VR W p) (hp' : VR R p) :
    Foot R W (invFFTAddToUnsafe O E p l) Tr := by
  unfold invFFTAddToUnsafe; foot <;> assumption

theorem foot_invFFTSubToUnsafe {l : FLoc} {p : Vec} (hl : inF R l) (hl' : inF W l) (hp : VR W p) (hp' : VR R p) :
    Foot R W (invFFTSubToUnsafe O E p l) Tr := by
  unfold invFFTSubToUnsafe; foot <;> assumption

theorem foot_mulFFTPolyTo {l x y : FLoc} (hl : inF W l) (hx : inF R x) (hy : inF R y) :
    Foot R W (mulFFTPolyTo O l x y) Tr := by
  unfold mulFFTPolyTo; foot <;> assumption

theorem foot_mulAddFFTPolyTo {l x y : FLoc} (hl : inF W l) (hl' : inF R l) (hx : inF R x) (hy : inF R y) :
    Foot R W (mulAddFFTPolyTo O l x y) Tr := by
  unfold mulAddFFTPolyTo; foot <;> assumption

theorem foot_subFFTPolyTo {l x y : FLoc} (hl : inF W l) (hx : inF R x) (hy : inF R y) :
    Foot R W (subFFTPolyTo O l x y) Tr := by
  unfold subFFTPolyTo; foot <;> assumption

theorem foot_fftPolyMulFFTGLWETo {o c : ℕ → FLoc} {y : FLoc} (hl : ∀ i, inF W (o i)) (hx : ∀ i, inF R (c i))
    (hy : inF R y) : Foot R W (fftPolyMulFFTGLWETo O E o c y) Tr :=
  foot_forUp fun i => foot_mulFFTPolyTo (hl i) (hx i) hy

theorem foot_fftPolyMulAddFFTGLWETo {o c : ℕ → FLoc} {y : FLoc} (hl : ∀ i, inF W (o i)) (hl' : ∀ i, inF R (o i))
    (hx : ∀ i, inF R (c i)) (hy : inF R y) : Foot R W (fftPolyMulAddFFTGLWETo O E o c y) Tr :=
  foot_forUp fun i => foot_mulAddFFTPolyTo (hl i) (hl' i) (hx i) hy

/-- A cell of a buffer is in every set. -/
theorem inF_priv {S : Set UCell} {l : FLoc} (h : ∀ a, l ≠ .user a) : inF S l := fun a e => absurd e (h a)

theorem foot_polyMulFFTGLWETo {o c : ℕ → FLoc} {p : Vec} (hl : ∀ i, inF W (o i)) (hx : ∀ i, inF R (c i)) (hp : VR R p) :
    Foot R W (polyMulFFTGLWETo O E o c p) Tr :=
  (foot_fwdFFTTo (l := .fpMul) (inF_priv fun _ => nofun) hp).bind fun _ _ => foot_forUp fun i =>
    foot_mulFFTPolyTo (hl i) (hx i) (inF_priv fun _ => nofun)

theorem foot_polyMulAddFFTGLWETo {o c : ℕ → FLoc} {p : Vec} (hl : ∀ i, inF W (o i)) (hl' : ∀ i, inF R (o i))
    (hx : ∀ i, inF R (c i)) (hp : VR R p) : Foot R W (polyMulAddFFTGLWETo O E o c p) Tr :=
  (foot_fwdFFTTo (l := .fpMul) (inF_priv fun _ => nofun) hp).bind fun _ _ => foot_forUp fun i =>
    foot_mulAddFFTPolyTo (hl i) (hl' i) (hx i) (inF_priv fun _ => nofun)

theorem foot_subFFTGLWETo {o c d : ℕ → FLoc} (hl : ∀ i, inF W (o i)) (hx : ∀ i, inF R (c i))
    (hy : ∀ i, inF R (d i)) : Foot R W (subFFTGLWETo O E o c d) Tr :=
  foot_forUp fun i => foot_subFFTPolyTo (hl i) (hx i) (hy i)

theorem foot_subGLWETo {o c d : List Vec} (ho : ∀ v ∈ o, VR W v) (hc : ∀ v ∈ c, VR R v) (hd : ∀ v ∈ d, VR R v) :
    Foot R W (subGLWETo E o c d : M w F Unit) Tr :=
  foot_forUp fun _ => foot_elem.bind fun _ h1 => foot_elem.bind fun _ h2 => foot_elem.bind fun _ h3 =>
    foot_check.bind fun _ _ => foot_subTo (ho _ h1) (hc _ h2) (hd _ h3)

theorem foot_monomialMulPolyTo {o p : Vec} {d : ℤ} (ho : VR W o) (hp : VR R p) :
    Foot R W (monomialMulPolyTo O E o p d) Tr := by
  unfold monomialMulPolyTo; foot <;> assumption

end

end Tfhe.Scratch
