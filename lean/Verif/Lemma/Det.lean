import Verif.Lemma.Run
import Mathlib.Data.Set.Basic

/-!
# Two runs of a program from memories that agree on some cells

`Det K p Q`: from any two memories that agree on the cells in `K`, the program `p` panics in both or
succeeds in both with the same result `a`, and then the memories agree on the cells of some `K' ⊇ K`
with `Q a K'`.  Cells of the buffers of the decomposer can only be in `K` if they are below the length
of the buffer in both memories.
-/
namespace Tfhe.Scratch

/-- Facts about two memories: agreement on a cell, or a lower bound on a buffer length. -/
inductive Loc where
  | w (l : WLoc)
  | f (l : FLoc)
  | cl (n : ℕ)
  | pl (n : ℕ)
  | fl (n : ℕ)

variable {w : ℕ} {F : Type}

/-- The cell exists. -/
def inb (m : Mem w F) : WLoc → Prop
  | .cDcmp i => i < m.cLen
  | .pDcmp j _ => j < m.pLen
  | _ => True

/-- The cell exists. -/
def inbF (m : Mem w F) : FLoc → Prop
  | .fpDcmp j => j < m.fpLen
  | _ => True

/-- The memories satisfy the fact. -/
def Holds (m m' : Mem w F) : Loc → Prop
  | .w l => m.wd l = m'.wd l ∧ inb m l ∧ inb m' l
  | .f l => m.ft l = m'.ft l ∧ inbF m l ∧ inbF m' l
  | .cl n => n ≤ m.cLen ∧ n ≤ m'.cLen
  | .pl n => n ≤ m.pLen ∧ n ≤ m'.pLen
  | .fl n => n ≤ m.fpLen ∧ n ≤ m'.fpLen

/-- The memories satisfy all the facts. -/
def Agree (K : Set Loc) (m m' : Mem w F) : Prop := ∀ l ∈ K, Holds m m' l

/-- See the top of the file. -/
def Det {A : Type} (K : Set Loc) (p : M w F A) (Q : A → Set Loc → Prop) : Prop :=
  ∀ m m', Agree K m m' →
    (p m = none ∧ p m' = none) ∨
    ∃ a m1 m1' K', p m = some (a, m1) ∧ p m' = some (a, m1') ∧ K ⊆ K' ∧ Q a K' ∧ Agree K' m1 m1'

/-- No postcondition. -/
abbrev Any {A : Type} : A → Set Loc → Prop := fun _ _ => True

theorem Det.congr {A : Type} {K : Set Loc} {p q : M w F A} {Q : A → Set Loc → Prop} (h : ∀ m, p m = q m)
    (hq : Det K q Q) : Det K p Q := by
  intro m m' hm
  rw [h, h]
  exact hq m m' hm

theorem Det.mono {A : Type} {K : Set Loc} {p : M w F A} {Q R : A → Set Loc → Prop} (h : Det K p Q)
    (hQ : ∀ a K', K ⊆ K' → Q a K' → R a K') : Det K p R := by
  intro m m' hm
  rcases h m m' hm with h | ⟨a, m1, m1', K', h1, h2, h3, h4, h5⟩
  · exact .inl h
  · exact .inr ⟨a, m1, m1', K', h1, h2, h3, hQ a K' h3 h4, h5⟩

theorem Det.any {A : Type} {K : Set Loc} {p : M w F A} {Q : A → Set Loc → Prop} (h : Det K p Q) : Det K p Any :=
  h.mono fun _ _ _ _ => trivial

theorem Det.pure {A : Type} {K : Set Loc} {a : A} {Q : A → Set Loc → Prop} (h : Q a K) :
    Det K (pure a : M w F A) Q :=
  fun m m' hm => .inr ⟨a, m, m', K, rfl, rfl, subset_rfl, h, hm⟩

theorem Det.panic {A : Type} {K : Set Loc} {Q : A → Set Loc → Prop} : Det K (panic : M w F A) Q :=
  fun _ _ _ => .inl ⟨rfl, rfl⟩

theorem Det.bind {A B : Type} {K : Set Loc} {p : M w F A} {f : A → M w F B} {Q : A → Set Loc → Prop}
    {R : B → Set Loc → Prop} (h : Det K p Q) (hf : ∀ a K', K ⊆ K' → Q a K' → Det K' (f a) R) :
    Det K (p >>= f) R := by
  intro m m' hm
  rcases h m m' hm with ⟨h1, h2⟩ | ⟨a, m1, m1', K', h1, h2, h3, h4, h5⟩
  · left
    rw [run_bind, run_bind, h1, h2]
    exact ⟨rfl, rfl⟩
  · have e1 : (p >>= f) m = f a m1 := by rw [run_bind, h1]; rfl
    have e2 : (p >>= f) m' = f a m1' := by rw [run_bind, h2]; rfl
    rw [e1, e2]
    rcases hf a K' h3 h4 m1 m1' h5 with h | ⟨b, m2, m2', K2, g1, g2, g3, g4, g5⟩
    · exact .inl h
    · exact .inr ⟨b, m2, m2', K2, g1, g2, h3.trans g3, g4, g5⟩

theorem Det.loopN {I : ℕ → Set Loc → Prop} (body : ℕ → M w F Unit) : ∀ (n a : ℕ) (K : Set Loc), I a K →
    (∀ i K', K ⊆ K' → a ≤ i → i < a + n → I i K' → Det K' (body i) fun _ K'' => I (i + 1) K'') →
    Det K (Scratch.loopN body n a) fun _ K' => I (a + n) K'
  | 0, a, K, h, _ => Det.pure h
  | n + 1, a, K, h, hb => by
    refine (hb a K subset_rfl le_rfl (by omega) h).bind fun _ K' hK hI => ?_
    rw [show a + (n + 1) = a + 1 + n by omega]
    exact Det.loopN body n (a + 1) K' hI fun i K'' h1 h2 h3 h4 =>
      hb i K'' (hK.trans h1) (by omega) (by omega) h4

theorem Det.forUp {a b : ℕ} {K : Set Loc} {body : ℕ → M w F Unit} (I : ℕ → Set Loc → Prop) (h : I a K)
    (hb : ∀ i K', K ⊆ K' → a ≤ i → i < b → I i K' → Det K' (body i) fun _ K'' => I (i + 1) K'') :
    Det K (Scratch.forUp a b body) fun _ K' => I (max a b) K' := by
  have := Det.loopN (I := I) body (b - a) a K h fun i K' h1 h2 h3 h4 => hb i K' h1 h2 (by omega) h4
  rwa [show a + (b - a) = max a b by omega] at this

/-- A loop where nothing has to be remembered. -/
theorem Det.forUp_any {a b : ℕ} {K : Set Loc} {body : ℕ → M w F Unit}
    (hb : ∀ i K', K ⊆ K' → a ≤ i → i < b → Det K' (body i) Any) : Det K (Scratch.forUp a b body) Any :=
  Det.forUp (fun _ _ => True) trivial fun i K' h1 h2 h3 _ => hb i K' h1 h2 h3

/-- A loop where iteration `i` establishes `P i`, which stays true. -/
theorem Det.forUp_all {a b : ℕ} {K : Set Loc} {body : ℕ → M w F Unit} (P : ℕ → Set Loc → Prop)
    (hP : ∀ i K' K'', K' ⊆ K'' → P i K' → P i K'')
    (hb : ∀ i K', K ⊆ K' → a ≤ i → i < b → (∀ j, a ≤ j → j < i → P j K') → Det K' (body i) fun _ K'' => P i K'') :
    Det K (Scratch.forUp a b body) fun _ K' => ∀ j, a ≤ j → j < b → P j K' := by
  refine (Det.forUp (fun i K' => ∀ j, a ≤ j → j < i → P j K') (fun j h1 h2 => by omega)
    fun i K' h1 h2 h3 h4 => (hb i K' h1 h2 h3 h4).mono fun _ K'' hK h5 j h6 h7 => ?_).mono
    fun _ K' _ h j h1 h2 => h j h1 (by omega)
  rcases Nat.lt_succ_iff_lt_or_eq.mp h7 with h | h
  · exact hP j K' K'' hK (h4 j h6 h)
  · rw [h]; exact h5

/-! ### Steps -/

/-- The cell is agreed on or may be written. -/
def ok (K : Set Loc) (l : WLoc) : Prop := .w l ∈ K ∨ match l with
  | .cDcmp i => ∃ n, .cl n ∈ K ∧ i < n
  | .pDcmp j _ => ∃ n, .pl n ∈ K ∧ j < n
  | _ => True

/-- The cell is agreed on or may be written. -/
def okF (K : Set Loc) (l : FLoc) : Prop := .f l ∈ K ∨ match l with
  | .fpDcmp j => ∃ n, .fl n ∈ K ∧ j < n
  | _ => True

theorem ok_mono {K K' : Set Loc} (h : K ⊆ K') {l : WLoc} (hl : ok K l) : ok K' l := by
  rcases hl with hl | hl
  · exact .inl (h hl)
  · right
    cases l <;> first | trivial | (obtain ⟨n, h1, h2⟩ := hl; exact ⟨n, h h1, h2⟩)

theorem okF_mono {K K' : Set Loc} (h : K ⊆ K') {l : FLoc} (hl : okF K l) : okF K' l := by
  rcases hl with hl | hl
  · exact .inl (h hl)
  · right
    cases l <;> first | trivial | (obtain ⟨n, h1, h2⟩ := hl; exact ⟨n, h h1, h2⟩)

theorem ok_inb {K : Set Loc} {m m' : Mem w F} (h : Agree K m m') {l : WLoc} (hl : ok K l) : inb m l ∧ inb m' l := by
  rcases hl with hl | hl
  · exact (h _ hl).2
  · cases l <;> first
      | exact ⟨trivial, trivial⟩
      | (obtain ⟨n, h1, h2⟩ := hl; have := h _ h1; exact ⟨h2.trans_le this.1, h2.trans_le this.2⟩)

theorem okF_inb {K : Set Loc} {m m' : Mem w F} (h : Agree K m m') {l : FLoc} (hl : okF K l) : inbF m l ∧ inbF m' l := by
  rcases hl with hl | hl
  · exact (h _ hl).2
  · cases l <;> first
      | exact ⟨trivial, trivial⟩
      | (obtain ⟨n, h1, h2⟩ := hl; have := h _ h1; exact ⟨h2.trans_le this.1, h2.trans_le this.2⟩)

/-- All elements are agreed on. -/
def Rd (K : Set Loc) (v : Vec) : Prop := ∀ i < v.len, .w (v.cell i) ∈ K

/-- All elements may be written. -/
def Wr (K : Set Loc) (v : Vec) : Prop := ∀ i < v.len, ok K (v.cell i)

theorem Rd.mono {K K' : Set Loc} (h : K ⊆ K') {v : Vec} (hv : Rd K v) : Rd K' v := fun i hi => h (hv i hi)
theorem Wr.mono {K K' : Set Loc} (h : K ⊆ K') {v : Vec} (hv : Wr K v) : Wr K' v := fun i hi => ok_mono h (hv i hi)
theorem Rd.wr {K : Set Loc} {v : Vec} (hv : Rd K v) : Wr K v := fun i hi => .inl (hv i hi)

theorem det_rd {K : Set Loc} {v : Vec} {i : ℕ} (h : i < v.len → .w (v.cell i) ∈ K) :
    Det K (rd v i : M w F (BitVec w)) fun _ _ => i < v.len := by
  intro m m' hm
  by_cases hi : i < v.len
  · exact .inr ⟨m.wd (v.cell i), m, m', K, by simp [run_rd, hi], by simp [run_rd, hi, (hm _ (h hi)).1], subset_rfl, hi, hm⟩
  · exact .inl (by simp [run_rd, hi])

theorem det_wr {K : Set Loc} {v : Vec} {i : ℕ} {x : BitVec w} (h : i < v.len → ok K (v.cell i)) :
    Det K (wr v i x : M w F Unit) fun _ K' => i < v.len ∧ .w (v.cell i) ∈ K' := by
  intro m m' hm
  by_cases hi : i < v.len
  · refine .inr ⟨(), _, _, insert (.w (v.cell i)) K, by rw [run_wr, if_pos hi],
      by rw [run_wr, if_pos hi], Set.subset_insert _ _, ⟨hi, Set.mem_insert _ _⟩, ?_⟩
    have hb := ok_inb hm (h hi)
    intro l hl
    rcases hl with rfl | hl
    · exact ⟨by simp [Mem.setW], by simpa [inb, Mem.setW] using hb.1, by simpa [inb, Mem.setW] using hb.2⟩
    · have := hm l hl
      cases l with
      | w l =>
        refine ⟨?_, this.2⟩
        by_cases e : l = v.cell i
        · simp [Mem.setW, e]
        · simp [Mem.setW, e, this.1]
      | f l => exact this
      | cl n => exact this
      | pl n => exact this
      | fl n => exact this
  · exact .inl (by simp [run_wr, hi])

theorem det_rdAll {K : Set Loc} {v : Vec} (h : Rd K v) : Det K (rdAll v : M w F (List (BitVec w))) Any := by
  intro m m' hm
  refine .inr ⟨_, m, m', K, run_rdAll v m, ?_, subset_rfl, trivial, hm⟩
  simp only [run_rdAll, Option.some.injEq, Prod.mk.injEq, and_true]
  refine List.map_congr_left fun i hi => ?_
  exact ((hm _ (h i (List.mem_range.mp hi))).1).symm

theorem det_rdF {K : Set Loc} {l : FLoc} (h : .f l ∈ K) : Det K (rdF l : M w F F) Any :=
  fun m m' hm => .inr ⟨m.ft l, m, m', K, rfl, by simp [run_rdF, (hm _ h).1], subset_rfl, trivial, hm⟩

theorem det_wrF {K : Set Loc} {l : FLoc} {x : F} (h : okF K l) :
    Det K (wrF l x : M w F Unit) fun _ K' => .f l ∈ K' := by
  intro m m' hm
  refine .inr ⟨(), _, _, insert (.f l) K, rfl, rfl, Set.subset_insert _ _, Set.mem_insert _ _, ?_⟩
  have hb := okF_inb hm h
  intro l' hl
  rcases hl with rfl | hl
  · exact ⟨by simp [Mem.setF], by simpa [inbF, Mem.setF] using hb.1, by simpa [inbF, Mem.setF] using hb.2⟩
  · have := hm l' hl
    cases l' with
    | f l' =>
      refine ⟨?_, this.2⟩
      by_cases e : l' = l
      · simp [Mem.setF, e]
      · simp [Mem.setF, e, this.1]
    | w l' => exact this
    | cl n => exact this
    | pl n => exact this
    | fl n => exact this

theorem det_check {K : Set Loc} {b : Bool} : Det K (check b : M w F Unit) fun _ _ => b = true := by
  cases b
  · exact Det.panic
  · exact Det.pure rfl

theorem det_need {A : Type} {K : Set Loc} {x : Option A} : Det K (need x : M w F A) fun a _ => x = some a := by
  cases x
  · exact Det.panic
  · exact Det.pure rfl

theorem det_elem {A : Type} {K : Set Loc} {xs : List A} {i : ℕ} :
    Det K (elem xs i : M w F A) fun a _ => xs[i]? = some a := det_need

theorem det_scalarBuffer {K : Set Loc} (g : GadgetParams w) :
    Det K (scalarBuffer g : M w F Vec) fun v K' => v = ⟨.cDcmp, g.level⟩ ∧ .cl g.level ∈ K' := by
  intro m m' hm
  have key : ∀ m : Mem w F, ∃ m1, scalarBuffer g m = some (⟨.cDcmp, g.level⟩, m1) ∧ m.cLen ≤ m1.cLen ∧
      g.level ≤ m1.cLen ∧ (∀ l, inb m l → m1.wd l = m.wd l) ∧ m1.ft = m.ft ∧ m1.pLen = m.pLen ∧ m1.fpLen = m.fpLen := by
    intro m
    rw [run_scalarBuffer]
    split
    · exact ⟨m, rfl, le_rfl, by assumption, fun _ _ => rfl, rfl, rfl, rfl⟩
    · refine ⟨_, rfl, ?_, le_rfl, fun l hl => ?_, rfl, rfl, rfl⟩
      · show m.cLen ≤ g.level; omega
      · cases l <;> try rfl
        have : ¬ m.cLen ≤ _ := not_le.mpr hl
        simp [Mem.growC, this]
  obtain ⟨m1, e1, a1, b1, c1, d1, f1, g1⟩ := key m
  obtain ⟨m2, e2, a2, b2, c2, d2, f2, g2⟩ := key m'
  refine .inr ⟨_, m1, m2, insert (.cl g.level) K, e1, e2, Set.subset_insert _ _, ⟨rfl, Set.mem_insert _ _⟩, ?_⟩
  intro l hl
  rcases hl with rfl | hl
  · exact ⟨b1, b2⟩
  · have := hm l hl
    cases l with
    | w l =>
      refine ⟨by rw [c1 l this.2.1, c2 l this.2.2, this.1], ?_, ?_⟩
      · have := this.2.1; cases l <;> simp_all [inb]; omega
      · have := this.2.2; cases l <;> simp_all [inb]; omega
    | f l =>
      refine ⟨by rw [d1, d2, this.1], ?_, ?_⟩
      · have := this.2.1; cases l <;> simp_all [inbF]
      · have := this.2.2; cases l <;> simp_all [inbF]
    | cl n => exact ⟨this.1.trans a1, this.2.trans a2⟩
    | pl n => exact ⟨this.1.trans f1.ge, this.2.trans f2.ge⟩
    | fl n => exact ⟨this.1.trans g1.ge, this.2.trans g2.ge⟩

/-- The slice returned by `PolyBuffer`. -/
abbrev polys (N level : ℕ) : List Vec := (List.range level).map fun j => ⟨.pDcmp j, N⟩

theorem det_polyBuffer {K : Set Loc} (N : ℕ) (g : GadgetParams w) :
    Det K (polyBuffer N g : M w F (List Vec)) fun v K' => v = polys N g.level ∧ .pl g.level ∈ K' := by
  intro m m' hm
  have key : ∀ m : Mem w F, ∃ m1, polyBuffer N g m = some (polys N g.level, m1) ∧ m.pLen ≤ m1.pLen ∧
      g.level ≤ m1.pLen ∧ (∀ l, inb m l → m1.wd l = m.wd l) ∧ m1.ft = m.ft ∧ m1.cLen = m.cLen ∧ m1.fpLen = m.fpLen := by
    intro m
    rw [run_polyBuffer]
    split
    · exact ⟨m, rfl, le_rfl, by assumption, fun _ _ => rfl, rfl, rfl, rfl⟩
    · refine ⟨_, rfl, ?_, le_rfl, fun l hl => ?_, rfl, rfl, rfl⟩
      · show m.pLen ≤ g.level; omega
      · cases l <;> try rfl
        have : ¬ m.pLen ≤ _ := not_le.mpr hl
        simp [Mem.growP, this]
  obtain ⟨m1, e1, a1, b1, c1, d1, f1, g1⟩ := key m
  obtain ⟨m2, e2, a2, b2, c2, d2, f2, g2⟩ := key m'
  refine .inr ⟨_, m1, m2, insert (.pl g.level) K, e1, e2, Set.subset_insert _ _, ⟨rfl, Set.mem_insert _ _⟩, ?_⟩
  intro l hl
  rcases hl with rfl | hl
  · exact ⟨b1, b2⟩
  · have := hm l hl
    cases l with
    | w l =>
      refine ⟨by rw [c1 l this.2.1, c2 l this.2.2, this.1], ?_, ?_⟩
      · have := this.2.1; cases l <;> simp_all [inb]; omega
      · have := this.2.2; cases l <;> simp_all [inb]; omega
    | f l =>
      refine ⟨by rw [d1, d2, this.1], ?_, ?_⟩
      · have := this.2.1; cases l <;> simp_all [inbF]
      · have := this.2.2; cases l <;> simp_all [inbF]
    | pl n => exact ⟨this.1.trans a1, this.2.trans a2⟩
    | cl n => exact ⟨this.1.trans f1.ge, this.2.trans f2.ge⟩
    | fl n => exact ⟨this.1.trans g1.ge, this.2.trans g2.ge⟩

theorem det_fftPolyBuffer {K : Set Loc} (O : Ops w F) (g : GadgetParams w) :
    Det K (fftPolyBuffer O g : M w F (List FLoc)) fun v K' =>
      v = (List.range g.level).map FLoc.fpDcmp ∧ .fl g.level ∈ K' := by
  intro m m' hm
  have key : ∀ m : Mem w F, ∃ m1, fftPolyBuffer O g m = some ((List.range g.level).map FLoc.fpDcmp, m1) ∧
      m.fpLen ≤ m1.fpLen ∧ g.level ≤ m1.fpLen ∧ (∀ l, inbF m l → m1.ft l = m.ft l) ∧ m1.wd = m.wd ∧
      m1.cLen = m.cLen ∧ m1.pLen = m.pLen := by
    intro m
    rw [run_fftPolyBuffer]
    split
    · exact ⟨m, rfl, le_rfl, by assumption, fun _ _ => rfl, rfl, rfl, rfl⟩
    · refine ⟨_, rfl, ?_, le_rfl, fun l hl => ?_, rfl, rfl, rfl⟩
      · show m.fpLen ≤ g.level; omega
      · cases l <;> try rfl
        have : ¬ m.fpLen ≤ _ := not_le.mpr hl
        simp [Mem.growF, this]
  obtain ⟨m1, e1, a1, b1, c1, d1, f1, g1⟩ := key m
  obtain ⟨m2, e2, a2, b2, c2, d2, f2, g2⟩ := key m'
  refine .inr ⟨_, m1, m2, insert (.fl g.level) K, e1, e2, Set.subset_insert _ _, ⟨rfl, Set.mem_insert _ _⟩, ?_⟩
  intro l hl
  rcases hl with rfl | hl
  · exact ⟨b1, b2⟩
  · have := hm l hl
    cases l with
    | f l =>
      refine ⟨by rw [c1 l this.2.1, c2 l this.2.2, this.1], ?_, ?_⟩
      · have := this.2.1; cases l <;> simp_all [inbF]; omega
      · have := this.2.2; cases l <;> simp_all [inbF]; omega
    | w l =>
      refine ⟨by rw [d1, d2, this.1], ?_, ?_⟩
      · have := this.2.1; cases l <;> simp_all [inb]
      · have := this.2.2; cases l <;> simp_all [inb]
    | fl n => exact ⟨this.1.trans a1, this.2.trans a2⟩
    | cl n => exact ⟨this.1.trans f1.ge, this.2.trans f2.ge⟩
    | pl n => exact ⟨this.1.trans g1.ge, this.2.trans g2.ge⟩

theorem det_sliceScalar {K : Set Loc} {level : ℕ} (h : .cl level ∈ K) :
    Det K (sliceScalar level : M w F Vec) fun v _ => v = ⟨.cDcmp, level⟩ := by
  intro m m' hm
  have := hm _ h
  exact .inr ⟨⟨.cDcmp, level⟩, m, m', K, by simp [run_sliceScalar, this.1], by simp [run_sliceScalar, this.2], subset_rfl, rfl, hm⟩

theorem det_slicePoly {K : Set Loc} {N level : ℕ} (h : .pl level ∈ K) :
    Det K (slicePoly N level : M w F (List Vec)) fun v _ => v = polys N level := by
  intro m m' hm
  have := hm _ h
  exact .inr ⟨polys N level, m, m', K, by simp [run_slicePoly, this.1], by simp [run_slicePoly, this.2], subset_rfl, rfl, hm⟩

theorem polys_get {N level j : ℕ} {v : Vec} (h : (polys N level)[j]? = some v) :
    j < level ∧ v = ⟨.pDcmp j, N⟩ := by
  rw [List.getElem?_map] at h
  by_cases hj : j < level
  · rw [List.getElem?_range hj] at h; exact ⟨hj, (Option.some.inj h).symm⟩
  · rw [List.getElem?_eq_none (by simpa using hj)] at h; cases h

theorem fpolys_get {level j : ℕ} {l : FLoc} (h : ((List.range level).map FLoc.fpDcmp)[j]? = some l) :
    j < level ∧ l = .fpDcmp j := by
  rw [List.getElem?_map] at h
  by_cases hj : j < level
  · rw [List.getElem?_range hj] at h; exact ⟨hj, (Option.some.inj h).symm⟩
  · rw [List.getElem?_eq_none (by simpa using hj)] at h; cases h

theorem ok_pDcmp {K : Set Loc} {n j i : ℕ} (h : .pl n ∈ K) (hj : j < n) : ok K (.pDcmp j i) := .inr ⟨n, h, hj⟩
theorem ok_cDcmp {K : Set Loc} {n i : ℕ} (h : .cl n ∈ K) (hi : i < n) : ok K (.cDcmp i) := .inr ⟨n, h, hi⟩
theorem okF_fpDcmp {K : Set Loc} {n j : ℕ} (h : .fl n ∈ K) (hj : j < n) : okF K (.fpDcmp j) := .inr ⟨n, h, hj⟩

/-! ### Vectors -/

theorem det_copyTo {K : Set Loc} {dst src : Vec} (hs : Rd K src) (hd : Wr K dst) :
    Det K (copyTo dst src : M w F Unit) fun _ K' => ∀ i < min dst.len src.len, .w (dst.cell i) ∈ K' := by
  refine (det_rdAll hs).bind fun xs K1 h1 _ => ?_
  refine (Det.forUp_all (fun i K' => .w (dst.cell i) ∈ K') (fun i _ _ h h' => h h') fun i K' h2 _ h3 _ => ?_).mono
    fun _ K' _ h i hi => h i (Nat.zero_le _) hi
  refine det_elem.bind fun x K2 h4 _ => (det_wr fun hi => ?_).mono fun _ K' _ h => h.2
  exact ok_mono (h1.trans (h2.trans h4)) (hd i hi)

theorem det_clear {K : Set Loc} {v : Vec} (hd : Wr K v) : Det K (clear v : M w F Unit) fun _ K' => Rd K' v := by
  refine (Det.forUp_all (fun i K' => .w (v.cell i) ∈ K') (fun i _ _ h h' => h h') fun i K' h2 _ h3 _ => ?_).mono
    fun _ K' _ h i hi => h i (Nat.zero_le _) hi
  exact (det_wr fun hi => ok_mono h2 (hd i hi)).mono fun _ K' _ h => h.2

theorem det_scalarMulTo {K : Set Loc} {out v : Vec} {c : BitVec w} (hv : Rd K v) (ho : Wr K out) :
    Det K (scalarMulTo out v c : M w F Unit) fun _ K' => Rd K' out := by
  refine det_check.bind fun _ K1 h1 _ => ?_
  refine (Det.forUp_all (fun i K' => .w (out.cell i) ∈ K') (fun i _ _ h h' => h h') fun i K' h2 _ h3 _ => ?_).mono
    fun _ K' _ h i hi => h i (Nat.zero_le _) hi
  refine (det_rd fun hi => h2 (h1 (hv i hi))).bind fun x K2 h4 _ => ?_
  exact (det_wr fun hi => ok_mono (h1.trans (h2.trans h4)) (ho i hi)).mono fun _ K' _ h => h.2

theorem det_scalarMulAddTo {K : Set Loc} {out v : Vec} {c : BitVec w} (hv : Rd K v) (ho : Rd K out) :
    Det K (scalarMulAddTo out v c : M w F Unit) Any := by
  refine det_check.bind fun _ K1 h1 _ => Det.forUp_any fun i K' h2 _ h3 => ?_
  refine (det_rd fun hi => h2 (h1 (ho i hi))).bind fun x K2 h4 _ => ?_
  refine (det_rd fun hi => h4 (h2 (h1 (hv i hi)))).bind fun y K3 h5 _ => ?_
  exact (det_wr fun hi => .inl (h5 (h4 (h2 (h1 (ho i hi)))))).any

theorem det_scalarMulSubTo {K : Set Loc} {out v : Vec} {c : BitVec w} (hv : Rd K v) (ho : Rd K out) :
    Det K (scalarMulSubTo out v c : M w F Unit) Any := by
  refine det_check.bind fun _ K1 h1 _ => Det.forUp_any fun i K' h2 _ h3 => ?_
  refine (det_rd fun hi => h2 (h1 (ho i hi))).bind fun x K2 h4 _ => ?_
  refine (det_rd fun hi => h4 (h2 (h1 (hv i hi)))).bind fun y K3 h5 _ => ?_
  exact (det_wr fun hi => .inl (h5 (h4 (h2 (h1 (ho i hi)))))).any

theorem det_addTo {K : Set Loc} {out v0 v1 : Vec} (h0 : Rd K v0) (h1 : Rd K v1) (ho : Wr K out) :
    Det K (addTo out v0 v1 : M w F Unit) fun _ K' => Rd K' out := by
  refine det_check.bind fun _ K1 g1 _ => ?_
  refine (Det.forUp_all (fun i K' => .w (out.cell i) ∈ K') (fun i _ _ h h' => h h') fun i K' h2 _ h3 _ => ?_).mono
    fun _ K' _ h i hi => h i (Nat.zero_le _) hi
  refine (det_rd fun hi => h2 (g1 (h0 i hi))).bind fun x K2 h4 _ => ?_
  refine (det_rd fun hi => h4 (h2 (g1 (h1 i hi)))).bind fun y K3 h5 _ => ?_
  exact (det_wr fun hi => ok_mono (g1.trans (h2.trans (h4.trans h5))) (ho i hi)).mono fun _ K' _ h => h.2

theorem det_subTo {K : Set Loc} {out v0 v1 : Vec} (h0 : Rd K v0) (h1 : Rd K v1) (ho : Wr K out) :
    Det K (subTo out v0 v1 : M w F Unit) fun _ K' => Rd K' out := by
  refine det_check.bind fun _ K1 g1 _ => ?_
  refine (Det.forUp_all (fun i K' => .w (out.cell i) ∈ K') (fun i _ _ h h' => h h') fun i K' h2 _ h3 _ => ?_).mono
    fun _ K' _ h i hi => h i (Nat.zero_le _) hi
  refine (det_rd fun hi => h2 (g1 (h0 i hi))).bind fun x K2 h4 _ => ?_
  refine (det_rd fun hi => h4 (h2 (g1 (h1 i hi)))).bind fun y K3 h5 _ => ?_
  exact (det_wr fun hi => ok_mono (g1.trans (h2.trans (h4.trans h5))) (ho i hi)).mono fun _ K' _ h => h.2

/-! ### Decomposition -/

theorem det_dcmpDown {g : GadgetParams w} {out : ℕ → Option (Vec × ℕ)} : ∀ (n : ℕ) (u : BitVec w) (K : Set Loc),
    (∀ j vp, out j = some vp → vp.2 < vp.1.len → ok K (vp.1.cell vp.2)) →
    Det K (dcmpDown g out n u : M w F (BitVec w)) fun _ K' =>
      ∀ j, 1 ≤ j → j ≤ n → ∃ vp, out j = some vp ∧ .w (vp.1.cell vp.2) ∈ K'
  | 0, u, K, _ => Det.pure fun j h1 h2 => by omega
  | n + 1, u, K, h => by
    refine det_need.bind fun vp K1 h1 e => ?_
    obtain ⟨v, p⟩ := vp
    refine (det_wr fun hi => ok_mono h1 (h _ _ e hi)).bind fun _ K2 h2 hw => ?_
    refine (det_rd fun _ => hw.2).bind fun d K3 h3 _ => ?_
    refine (det_rd fun _ => h3 hw.2).bind fun d K4 h4 _ => ?_
    refine (det_wr fun _ => .inl (h4 (h3 hw.2))).bind fun _ K5 h5 hw' => ?_
    have hK : K ⊆ K5 := h1.trans (h2.trans (h3.trans (h4.trans h5)))
    refine (det_dcmpDown n _ K5 fun j vp e hi => ok_mono hK (h j vp e hi)).mono fun _ K6 h6 h7 j hj1 hj2 => ?_
    rcases Nat.lt_or_ge j (n + 1) with hj | hj
    · exact h7 j hj1 (by omega)
    · rw [show j = n + 1 by omega]; exact ⟨_, e, h6 hw'.2⟩

theorem det_dcmp {g : GadgetParams w} {out : ℕ → Option (Vec × ℕ)} {x : BitVec w} {K : Set Loc}
    (h : ∀ j vp, out j = some vp → vp.2 < vp.1.len → ok K (vp.1.cell vp.2)) :
    Det K (dcmp g out x : M w F Unit) fun _ K' =>
      ∀ j, j < max 1 g.level → ∃ vp, out j = some vp ∧ .w (vp.1.cell vp.2) ∈ K' := by
  refine (det_dcmpDown _ _ K h).bind fun u K1 h1 hd => ?_
  refine det_need.bind fun vp K2 h2 e => ?_
  obtain ⟨v, p⟩ := vp
  refine (det_wr fun hi => ok_mono (h1.trans h2) (h _ _ e hi)).bind fun _ K3 h3 hw => ?_
  refine (det_rd fun _ => hw.2).bind fun d K4 h4 _ => ?_
  refine (det_wr fun _ => .inl (h4 hw.2)).mono fun _ K5 h5 hw' j hj => ?_
  rcases Nat.eq_zero_or_pos j with hj0 | hj0
  · rw [hj0]; exact ⟨_, e, hw'.2⟩
  · obtain ⟨vp, e, hm⟩ := hd j hj0 (by omega)
    exact ⟨vp, e, h5 (h4 (h3 (h2 hm)))⟩

theorem det_decomposeScalarTo {g : GadgetParams w} {out : Vec} {x : BitVec w} {K : Set Loc} (h : Wr K out) :
    Det K (decomposeScalarTo g out x : M w F Unit) fun _ K' => ∀ j, j < max 1 g.level → .w (out.cell j) ∈ K' := by
  refine (det_dcmp ?_).mono fun _ K' _ h j hj => ?_
  · intro j vp e hi
    cases e; exact h j hi
  · obtain ⟨vp, e, hm⟩ := h j hj
    cases e; exact hm

theorem det_decomposePolyTo {g : GadgetParams w} {out : List Vec} {p : Vec} {K : Set Loc} (hp : Rd K p)
    (h : ∀ v ∈ out, Wr K v) :
    Det K (decomposePolyTo g out p : M w F Unit) fun _ K' =>
      ∀ i, i < p.len → ∀ j, j < max 1 g.level → ∃ v, out[j]? = some v ∧ .w (v.cell i) ∈ K' := by
  refine (Det.forUp_all (fun i K' => ∀ j, j < max 1 g.level → ∃ v, out[j]? = some v ∧ .w (v.cell i) ∈ K')
    ?_ fun i K' h2 _ h3 _ => ?_).mono fun _ K' _ h i hi => h i (Nat.zero_le _) hi
  · intro i K' K'' hK h j hj
    obtain ⟨v, e, hm⟩ := h j hj
    exact ⟨v, e, hK hm⟩
  · refine (det_rd fun hi => h2 (hp i hi)).bind fun x K1 h4 _ => ?_
    refine (det_dcmp ?_).mono fun _ K' _ h j hj => ?_
    · intro j vp e hi
      rw [Option.map_eq_some_iff] at e
      obtain ⟨v, e, rfl⟩ := e
      exact ok_mono (h2.trans h4) (h v (List.mem_of_getElem? e) i hi)
    · obtain ⟨vp, e, hm⟩ := h j hj
      rw [Option.map_eq_some_iff] at e
      obtain ⟨v, e, rfl⟩ := e
      exact ⟨v, e, hm⟩

/-- Decomposition into the buffer of the decomposer. -/
theorem det_decomposeBuf {g : GadgetParams w} {N : ℕ} {p : Vec} {K : Set Loc} (hp : Rd K p) (hN : N ≤ p.len)
    (hK : .pl g.level ∈ K) :
    Det K (decomposePolyTo g (polys N g.level) p : M w F Unit) fun _ K' =>
      ∀ (j : ℕ) (v : Vec), (polys N g.level)[j]? = some v → Rd K' v := by
  refine (det_decomposePolyTo hp ?_).mono fun _ K' _ h j v e i hi => ?_
  · intro v hv i hi
    rw [List.mem_map] at hv
    obtain ⟨j, hj, rfl⟩ := hv
    exact ok_pDcmp hK (List.mem_range.mp hj)
  · obtain ⟨hj, rfl⟩ := polys_get e
    obtain ⟨v, e', hm⟩ := h i (lt_of_lt_of_le hi hN) j (by omega)
    rw [e] at e'
    cases e'; exact hm

/-! ### Polynomials -/

variable {O : Ops w F} {E : Ev w}

theorem det_fwdFFTTo {K : Set Loc} {out : FLoc} {p : Vec} (hp : Rd K p) (ho : okF K out) :
    Det K (fwdFFTTo O E out p) fun _ K' => p.len = E.N ∧ .f out ∈ K' := by
  refine det_check.bind fun _ K1 h1 hc => (det_rdAll (hp.mono h1)).bind fun xs K2 h2 _ => ?_
  exact (det_wrF (okF_mono (h1.trans h2) ho)).mono fun _ K' _ h => ⟨by simpa using hc, h⟩

theorem det_invFFTToUnsafe {K : Set Loc} {out : Vec} {fp : FLoc} (hf : .f fp ∈ K) (ho : Wr K out) :
    Det K (invFFTToUnsafe O E out fp) fun _ K' => out.len = E.N ∧ Rd K' out := by
  refine det_check.bind fun _ K1 h1 hc => ?_
  have hc : out.len = E.N := by simpa using hc
  refine (det_rdF (h1 hf)).bind fun x K2 h2 _ => (det_wrF (.inl (h2 (h1 hf)))).bind fun _ K3 h3 _ => ?_
  refine (Det.forUp_all (fun i K' => .w (out.cell i) ∈ K') (fun i _ _ h h' => h h') fun i K' h4 _ h5 _ => ?_).mono
    fun _ K' _ h => ⟨hc, fun i hi => h i (Nat.zero_le _) (by omega)⟩
  exact (det_wr fun hi => ok_mono (h1.trans (h2.trans (h3.trans h4))) (ho i hi)).mono fun _ K' _ h => h.2

theorem det_invFFTAddToUnsafe {K : Set Loc} {out : Vec} {fp : FLoc} (hf : .f fp ∈ K) (ho : Rd K out) :
    Det K (invFFTAddToUnsafe O E out fp) fun _ _ => out.len = E.N := by
  refine det_check.bind fun _ K1 h1 hc => ?_
  have hc : out.len = E.N := by simpa using hc
  refine (det_rdF (h1 hf)).bind fun x K2 h2 _ => (det_wrF (.inl (h2 (h1 hf)))).bind fun _ K3 h3 _ => ?_
  refine (Det.forUp_any fun i K' h4 _ h5 => ?_).mono fun _ K' _ h => hc
  refine (det_rd fun hi => h4 (h3 (h2 (h1 (ho i hi))))).bind fun o K4 h6 _ => ?_
  exact (det_wr fun hi => .inl (h6 (h4 (h3 (h2 (h1 (ho i hi))))))).any

theorem det_invFFTSubToUnsafe {K : Set Loc} {out : Vec} {fp : FLoc} (hf : .f fp ∈ K) (ho : Rd K out) :
    Det K (invFFTSubToUnsafe O E out fp) fun _ _ => out.len = E.N := by
  refine det_check.bind fun _ K1 h1 hc => ?_
  have hc : out.len = E.N := by simpa using hc
  refine (det_rdF (h1 hf)).bind fun x K2 h2 _ => (det_wrF (.inl (h2 (h1 hf)))).bind fun _ K3 h3 _ => ?_
  refine (Det.forUp_any fun i K' h4 _ h5 => ?_).mono fun _ K' _ h => hc
  refine (det_rd fun hi => h4 (h3 (h2 (h1 (ho i hi))))).bind fun o K4 h6 _ => ?_
  exact (det_wr fun hi => .inl (h6 (h4 (h3 (h2 (h1 (ho i hi))))))).any

theorem det_invFFTMode {K : Set Loc} {mode : Mode} {out : Vec} {fp : FLoc} (hf : .f fp ∈ K) (ho : Rd K out) :
    Det K (invFFTMode O E mode out fp) Any := by
  cases mode
  · exact (det_invFFTToUnsafe hf ho.wr).any
  · exact (det_invFFTAddToUnsafe hf ho).any
  · exact (det_invFFTSubToUnsafe hf ho).any

theorem det_mulFFTPolyTo {K : Set Loc} {out f0 f1 : FLoc} (h0 : .f f0 ∈ K) (h1 : .f f1 ∈ K) (ho : okF K out) :
    Det K (mulFFTPolyTo O out f0 f1) fun _ K' => .f out ∈ K' := by
  refine (det_rdF h0).bind fun x K1 g1 _ => (det_rdF (g1 h1)).bind fun y K2 g2 _ => ?_
  exact det_wrF (okF_mono (g1.trans g2) ho)

theorem det_mulAddFFTPolyTo {K : Set Loc} {out f0 f1 : FLoc} (h0 : .f f0 ∈ K) (h1 : .f f1 ∈ K) (ho : .f out ∈ K) :
    Det K (mulAddFFTPolyTo O out f0 f1) Any := by
  refine (det_rdF ho).bind fun o K0 g0 _ => (det_rdF (g0 h0)).bind fun x K1 g1 _ =>
    (det_rdF (g1 (g0 h1))).bind fun y K2 g2 _ => ?_
  exact (det_wrF (.inl (g2 (g1 (g0 ho))))).any

theorem det_subFFTPolyTo {K : Set Loc} {out f0 f1 : FLoc} (h0 : .f f0 ∈ K) (h1 : .f f1 ∈ K) (ho : okF K out) :
    Det K (subFFTPolyTo O out f0 f1) fun _ K' => .f out ∈ K' := by
  refine (det_rdF h0).bind fun x K1 g1 _ => (det_rdF (g1 h1)).bind fun y K2 g2 _ => ?_
  exact det_wrF (okF_mono (g1.trans g2) ho)

/-- All components are agreed on. -/
def RdF (E : Ev w) (K : Set Loc) (ct : ℕ → FLoc) : Prop := ∀ t, t < E.k + 1 → .f (ct t) ∈ K

/-- All components may be written. -/
def WrF (E : Ev w) (K : Set Loc) (ct : ℕ → FLoc) : Prop := ∀ t, t < E.k + 1 → okF K (ct t)

theorem RdF.mono {K K' : Set Loc} (h : K ⊆ K') {v : ℕ → FLoc} (hv : RdF E K v) : RdF E K' v := fun i hi => h (hv i hi)
theorem WrF.mono {K K' : Set Loc} (h : K ⊆ K') {v : ℕ → FLoc} (hv : WrF E K v) : WrF E K' v :=
  fun i hi => okF_mono h (hv i hi)
theorem RdF.wr {K : Set Loc} {v : ℕ → FLoc} (hv : RdF E K v) : WrF E K v := fun i hi => .inl (hv i hi)

theorem det_fftPolyMul {K : Set Loc} {out ct : ℕ → FLoc} {fp : FLoc} (hc : RdF E K ct) (hf : .f fp ∈ K)
    (ho : WrF E K out) : Det K (fftPolyMulFFTGLWETo O E out ct fp) fun _ K' => RdF E K' out := by
  refine (Det.forUp_all (fun i K' => .f (out i) ∈ K') (fun i _ _ h h' => h h') fun i K' h4 _ h5 _ => ?_).mono
    fun _ K' _ h i hi => h i (Nat.zero_le _) hi
  exact det_mulFFTPolyTo (h4 (hc i h5)) (h4 hf) (okF_mono h4 (ho i h5))

theorem det_fftPolyMulAdd {K : Set Loc} {out ct : ℕ → FLoc} {fp : FLoc} (hc : RdF E K ct) (hf : .f fp ∈ K)
    (ho : RdF E K out) : Det K (fftPolyMulAddFFTGLWETo O E out ct fp) Any :=
  Det.forUp_any fun i _ h4 _ h5 => det_mulAddFFTPolyTo (h4 (hc i h5)) (h4 hf) (h4 (ho i h5))

theorem det_polyMul {K : Set Loc} {out ct : ℕ → FLoc} {p : Vec} (hc : RdF E K ct) (hp : Rd K p)
    (ho : WrF E K out) : Det K (polyMulFFTGLWETo O E out ct p) fun _ K' => RdF E K' out := by
  refine (det_fwdFFTTo hp (.inr trivial)).bind fun _ K1 h1 hm => ?_
  exact det_fftPolyMul (hc.mono h1) hm.2 (ho.mono h1)

theorem det_polyMulAdd {K : Set Loc} {out ct : ℕ → FLoc} {p : Vec} (hc : RdF E K ct) (hp : Rd K p)
    (ho : RdF E K out) : Det K (polyMulAddFFTGLWETo O E out ct p) Any := by
  refine (det_fwdFFTTo hp (.inr trivial)).bind fun _ K1 h1 hm => ?_
  exact det_fftPolyMulAdd (hc.mono h1) hm.2 (ho.mono h1)

theorem det_subFFTGLWETo {K : Set Loc} {out ct0 ct1 : ℕ → FLoc} (h0 : RdF E K ct0) (h1 : RdF E K ct1)
    (ho : WrF E K out) : Det K (subFFTGLWETo O E out ct0 ct1) fun _ K' => RdF E K' out := by
  refine (Det.forUp_all (fun i K' => .f (out i) ∈ K') (fun i _ _ h h' => h h') fun i K' h4 _ h5 _ => ?_).mono
    fun _ K' _ h i hi => h i (Nat.zero_le _) hi
  exact det_subFFTPolyTo (h4 (h0 i h5)) (h4 (h1 i h5)) (okF_mono h4 (ho i h5))

theorem det_monomialMulPolyTo {K : Set Loc} {out p : Vec} {d : ℤ} (hp : Rd K p) (ho : Wr K out) :
    Det K (monomialMulPolyTo O E out p d) fun _ K' => out.len = E.N ∧ Rd K' out := by
  refine det_check.bind fun _ K1 h1 hc => (det_rdAll (hp.mono h1)).bind fun xs K2 h2 _ => ?_
  have hc : out.len = E.N := by
    rw [Bool.and_eq_true] at hc; simpa using hc.1
  refine (Det.forUp_all (fun i K' => .w (out.cell i) ∈ K') (fun i _ _ h h' => h h') fun i K' h4 _ h5 _ => ?_).mono
    fun _ K' _ h => ⟨hc, fun i hi => h i (Nat.zero_le _) (by omega)⟩
  exact (det_wr fun hi => ok_mono (h1.trans (h2.trans h4)) (ho i hi)).mono fun _ K' _ h => h.2

end Tfhe.Scratch
