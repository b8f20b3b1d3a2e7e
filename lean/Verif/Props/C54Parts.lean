import Verif.Props.C54

/-!
# C54: keys with several parts

`CopyFrom` and `Clear` of `tfhe.EvaluationKey`, `tfhe.PublicKey` and `mktfhe.EvaluationKey`: what the parts hold afterwards,
and that no cell outside the receiver changes.
-/
namespace Tfhe.Copies
variable {V G : Type}

/-- What the receiver holds after `CopyFrom`: everything, except that a uni-encryption keeps its own gadget parameters. -/
def Kind.received (k : Kind) (d : Ref G) (T : Tree V G) : Tree V G :=
  match k, T with
  | .uni, .node _ l => .node d.g l
  | .fftUni, .node _ l => .node d.g l
  | _, T => T

theorem bind_inv {A B : Type} {p : M V G A} {f : A → M V G B} {h h' : Heap V G} {b : B} (e : (p >>= f) h = some (b, h')) :
    ∃ a h1, p h = some (a, h1) ∧ f a h1 = some (b, h') := by
  change (p h).bind (fun r => f r.1 r.2) = _ at e
  obtain ⟨x, h1, h2⟩ := Option.bind_eq_some_iff.1 e
  exact ⟨x.1, x.2, h1, h2⟩

theorem copyFrom_any (k : Kind) (h : Heap V G) (d r : Ref G) (T : Tree V G) (hT : Holds k.ty h r T)
    (hS : HasShape k.ty h d.s T) (hd : Tidy k.ty h d.s) (hdr : Disjoint (cells k.ty h d.s) (cells k.ty h r.s)) :
    ∃ d' h', k.copyFrom d r h = some (d', h') ∧ d'.s = d.s ∧ Holds k.ty h' d' (k.received d T) ∧
      (∀ p ∉ cells k.ty h d.s, h'.arr p.1 p.2 = h.arr p.1 p.2) ∧ cells k.ty h' d.s = cells k.ty h d.s := by
  by_cases hk : k ≠ .uni ∧ k ≠ .fftUni
  · obtain ⟨d', h', e, s, H, -, o, q, -⟩ := copyFromOK_kind (V := V) (G := G) k hk h d r T hT hS hd hdr
    refine ⟨d', h', e, s, ?_, o, q⟩
    have : k.received d T = T := by
      cases k <;> first | rfl | exact absurd rfl hk.1 | exact absurd rfl hk.2
    rw [this]; exact H
  · have hk' : k = .uni ∨ k = .fftUni := by tauto
    have e2 : k.ty = .node true (.node true (.node false .leaf)) := by rcases hk' with rfl | rfl <;> rfl
    obtain ⟨f, hf, e1⟩ : ∃ f, CopyFromOK (V := V) (G := G) (.node true (.node false .leaf)) f ∧ k.copyFrom = copyFromArr f := by
      rcases hk' with rfl | rfl
      · exact ⟨_, copyFromOK_gad (copyFromOK_arr copyFromOK_leaf), rfl⟩
      · exact ⟨_, copyFromOK_gad (copyFromOK_arr copyFromOK_leaf), rfl⟩
    rw [e2] at hT hS hd hdr ⊢
    rw [e1]
    cases T with
    | words => exact hT.elim
    | node g l =>
      obtain ⟨h', e, -, a2, a3, a4, -⟩ := copyFromElems_run hf h d.s r.s l hS.1 hT.2.1 hT.2.2 hS.2 hd hdr
      refine ⟨d, h', (bind_run e).trans rfl, rfl, ?_, a2, a4⟩
      have : k.received d (.node g l) = (.node d.g l : Tree V G) := by rcases hk' with rfl | rfl <;> rfl
      rw [this]
      exact ⟨rfl, hS.1, a3⟩

/-- A part of a key: its type, the receiver, the argument, and what the argument holds. -/
structure Part (V G : Type) where
  k : Kind
  d : Ref G
  r : Ref G
  T : Tree V G

/-- `CopyFrom` of the parts one after the other. -/
def copyFromParts : List (Part V G) → M V G (List (Ref G))
  | [] => pure []
  | p :: l => do
    let d ← p.k.copyFrom p.d p.r
    let ds ← copyFromParts l
    return d :: ds

/-- `Clear` of the parts one after the other. -/
def clearParts [Zero V] : List (Part V G) → M V G Unit
  | [] => pure ()
  | p :: l => do
    p.k.clear p.d
    clearParts l

/-- The cells of a receiver. -/
def Part.cells (p : Part V G) (h : Heap V G) : Set (ℕ × ℕ) := Copies.cells p.k.ty h p.d.s

/-- The arguments hold their trees, and the receivers have their shapes. -/
def Part.Ready (h : Heap V G) (p : Part V G) : Prop :=
  Holds p.k.ty h p.r p.T ∧ HasShape p.k.ty h p.d.s p.T ∧ Tidy p.k.ty h p.d.s

theorem copyFromParts_run (l : List (Part V G)) (h : Heap V G) (hr : ∀ p ∈ l, p.Ready h)
    (h1 : l.Pairwise fun p q => Disjoint (p.cells h) (q.cells h))
    (h2 : ∀ p ∈ l, ∀ q ∈ l, Disjoint (p.cells h) (Copies.cells q.k.ty h q.r.s)) :
    ∃ ds h', copyFromParts l h = some (ds, h') ∧
      List.Forall₂ (fun p d' => d'.s = p.d.s ∧ Holds p.k.ty h' d' (p.k.received p.d p.T)) l ds ∧
      ∀ c, (∀ p ∈ l, c ∉ p.cells h) → h'.arr c.1 c.2 = h.arr c.1 c.2 := by
  induction l generalizing h with
  | nil => exact ⟨[], h, rfl, .nil, fun _ _ => rfl⟩
  | cons p l ih =>
    rw [List.pairwise_cons] at h1
    obtain ⟨a1, a2, a3⟩ := hr p (by simp)
    obtain ⟨d', h3, e, s, H, o, q⟩ := copyFrom_any p.k h p.d p.r p.T a1 a2 a3 (h2 p (by simp) p (by simp))
    have Sd : ∀ t ∈ l, Same (t.cells h) h h3 := fun t ht c hc => o c (Set.disjoint_right.1 (h1.1 t ht) hc)
    have Sr : ∀ t ∈ l, Same (Copies.cells t.k.ty h t.r.s) h h3 :=
      fun t ht c hc => o c (Set.disjoint_right.1 (h2 p (by simp) t (by simp [ht])) hc)
    have cd : ∀ t ∈ l, t.cells h3 = t.cells h := fun t ht => cells_same (Sd t ht)
    have cr : ∀ t ∈ l, Copies.cells t.k.ty h3 t.r.s = Copies.cells t.k.ty h t.r.s := fun t ht => cells_same (Sr t ht)
    obtain ⟨ds, h4, e4, F, o4⟩ := ih h3
      (fun t ht => by
        obtain ⟨b1, b2, b3⟩ := hr t (by simp [ht])
        exact ⟨holds_same (Sr t ht) b1, shape_same (Sd t ht) b2, tidy_same (Sd t ht) b3⟩)
      (h1.2.imp_of_mem fun {a b} ha hb hab => by rw [cd a ha, cd b hb]; exact hab)
      (fun a ha b hb => by rw [cd a ha, cr b hb]; exact h2 a (by simp [ha]) b (by simp [hb]))
    refine ⟨d' :: ds, h4, (bind_run e).trans ((bind_run e4).trans rfl), .cons ⟨s, holds_same ?_ H⟩ F, fun c hc => ?_⟩
    · intro c hc
      rw [s, q] at hc
      exact o4 c fun t ht => by
        rw [cd t ht]
        exact Set.disjoint_left.1 (h1.1 t ht) hc
    · rw [o4 c fun t ht => by rw [cd t ht]; exact hc t (by simp [ht])]
      exact o c (hc p (by simp))

theorem clearParts_run [Zero V] (l : List (Part V G)) (h : Heap V G)
    (hr : ∀ p ∈ l, Holds p.k.ty h p.d p.T ∧ Tidy p.k.ty h p.d.s)
    (h1 : l.Pairwise fun p q => Disjoint (p.cells h) (q.cells h)) :
    ∃ h', clearParts l h = some ((), h') ∧ (∀ p ∈ l, Holds p.k.ty h' p.d (zeros p.k.ty p.T)) ∧
      ∀ c, (∀ p ∈ l, c ∉ p.cells h) → h'.arr c.1 c.2 = h.arr c.1 c.2 := by
  induction l generalizing h with
  | nil => exact ⟨h, rfl, by simp, fun _ _ => rfl⟩
  | cons p l ih =>
    rw [List.pairwise_cons] at h1
    obtain ⟨a1, a3⟩ := hr p (by simp)
    obtain ⟨h3, e, H, -, o, q⟩ := clearOK_kind (V := V) (G := G) p.k h p.d p.T a1 a3
    have Sd : ∀ t ∈ l, Same (t.cells h) h h3 := fun t ht c hc => o c (Set.disjoint_right.1 (h1.1 t ht) hc)
    have cd : ∀ t ∈ l, t.cells h3 = t.cells h := fun t ht => cells_same (Sd t ht)
    obtain ⟨h4, e4, F, o4⟩ := ih h3
      (fun t ht => by
        obtain ⟨b1, b3⟩ := hr t (by simp [ht])
        exact ⟨holds_same (Sd t ht) b1, tidy_same (Sd t ht) b3⟩)
      (h1.2.imp_of_mem fun {a b} ha hb hab => by rw [cd a ha, cd b hb]; exact hab)
    refine ⟨h4, (bind_run e).trans e4, ?_, fun c hc => ?_⟩
    · intro t ht
      rcases List.mem_cons.1 ht with rfl | ht
      · refine holds_same ?_ H
        intro c hc
        rw [q] at hc
        exact o4 c fun t ht => by
          rw [cd t ht]
          exact Set.disjoint_left.1 (h1.1 t ht) hc
      · exact F t ht
    · rw [o4 c fun t ht => by rw [cd t ht]; exact hc t (by simp [ht])]
      exact o c (hc p (by simp))

/-- The parts of a `mktfhe.EvaluationKey`: receiver `b s c u`, argument `b₀ s₀ c₀ u₀` with contents `B S C U`. -/
def mkEvkParts (b s c u b₀ s₀ c₀ u₀ : Ref G) (B S C U : Tree V G) : List (Part V G) :=
  [⟨.brk, b, b₀, B⟩, ⟨.lweKSK, s, s₀, S⟩, ⟨.fftGLev, c, c₀, C⟩, ⟨.fftUni, u, u₀, U⟩]
/-- The parts of a `tfhe.EvaluationKey`. -/
def evkParts (b s b₀ s₀ : Ref G) (B S : Tree V G) : List (Part V G) := [⟨.brk, b, b₀, B⟩, ⟨.lweKSK, s, s₀, S⟩]
/-- The parts of a `tfhe.PublicKey`. -/
def pkParts (b s b₀ s₀ : Ref G) (B S : Tree V G) : List (Part V G) := [⟨.lwePK, b, b₀, B⟩, ⟨.glwePK, s, s₀, S⟩]

/-- `CopyFrom` of a `mktfhe.EvaluationKey` whose parts have the shapes of those of the argument and overlap neither each other
nor the argument: the receiver holds what the argument holds, but its relinearization key keeps its own gadget parameters; no
cell outside the receiver changes, in particular none of the argument. -/
theorem C54_mkEvkCopyFrom_partial (h : Heap V G) (b s c u b₀ s₀ c₀ u₀ : Ref G) (B S C U : Tree V G)
    (hr : ∀ p ∈ mkEvkParts b s c u b₀ s₀ c₀ u₀ B S C U, p.Ready h)
    (h1 : (mkEvkParts b s c u b₀ s₀ c₀ u₀ B S C U).Pairwise fun p q => Disjoint (p.cells h) (q.cells h))
    (h2 : ∀ p ∈ mkEvkParts b s c u b₀ s₀ c₀ u₀ B S C U, ∀ q ∈ mkEvkParts b s c u b₀ s₀ c₀ u₀ B S C U,
      Disjoint (p.cells h) (Copies.cells q.k.ty h q.r.s)) :
    ∃ b' s' c' u' h', mkEvkCopyFrom ((b, s), c, u) ((b₀, s₀), c₀, u₀) h = some (((b', s'), c', u'), h') ∧
      Holds Kind.brk.ty h' b' B ∧ Holds Kind.lweKSK.ty h' s' S ∧ Holds Kind.fftGLev.ty h' c' C ∧
      Holds Kind.fftUni.ty h' u' (Kind.fftUni.received u U) ∧
      ∀ a, (∀ p ∈ mkEvkParts b s c u b₀ s₀ c₀ u₀ B S C U, a ∉ p.cells h) → h'.arr a.1 a.2 = h.arr a.1 a.2 := by
  obtain ⟨ds, h', e, F, o⟩ := copyFromParts_run _ h hr h1 h2
  unfold mkEvkParts at F e
  rcases F with _ | ⟨H1, _ | ⟨H2, _ | ⟨H3, _ | ⟨H4, _ | _⟩⟩⟩⟩
  rename_i b' s' c' u'
  refine ⟨b', s', c', u', h', ?_, H1.2, H2.2, H3.2, H4.2, o⟩
  obtain ⟨y1, g1, e1, e⟩ := bind_inv e
  obtain ⟨l1, g1', e1', f1⟩ := bind_inv e
  obtain ⟨y2, g2, e2, e⟩ := bind_inv e1'
  obtain ⟨l2, g2', e2', f2⟩ := bind_inv e
  obtain ⟨y3, g3, e3, e⟩ := bind_inv e2'
  obtain ⟨l3, g3', e3', f3⟩ := bind_inv e
  obtain ⟨y4, g4, e4, e⟩ := bind_inv e3'
  obtain ⟨l4, g4', e4', f4⟩ := bind_inv e
  rw [copyFromParts] at e4'
  simp only [pure_run, Option.some.injEq, Prod.mk.injEq] at f1 f2 f3 f4 e4'
  obtain ⟨rfl, rfl⟩ := e4'
  obtain ⟨rfl, rfl⟩ := f4
  obtain ⟨rfl, rfl⟩ := f3
  obtain ⟨rfl, rfl⟩ := f2
  obtain ⟨q, rfl⟩ := f1
  simp only [List.cons.injEq, and_true] at q
  obtain ⟨rfl, rfl, rfl, rfl⟩ := q
  exact (bind_run ((bind_run e1).trans ((bind_run e2).trans rfl))).trans ((bind_run e3).trans ((bind_run e4).trans rfl))

/-- `CopyFrom` of a `tfhe.EvaluationKey` changes no cell outside the receiver. -/
theorem C54_evkCopyFrom_frame (h : Heap V G) (b s b₀ s₀ : Ref G) (B S : Tree V G)
    (hr : ∀ p ∈ evkParts b s b₀ s₀ B S, p.Ready h)
    (h1 : (evkParts b s b₀ s₀ B S).Pairwise fun p q => Disjoint (p.cells h) (q.cells h))
    (h2 : ∀ p ∈ evkParts b s b₀ s₀ B S, ∀ q ∈ evkParts b s b₀ s₀ B S, Disjoint (p.cells h) (Copies.cells q.k.ty h q.r.s)) :
    ∃ b' s' h', evkCopyFrom (b, s) (b₀, s₀) h = some ((b', s'), h') ∧
      Holds Kind.brk.ty h' b' B ∧ Holds Kind.lweKSK.ty h' s' S ∧
      ∀ a, (∀ p ∈ evkParts b s b₀ s₀ B S, a ∉ p.cells h) → h'.arr a.1 a.2 = h.arr a.1 a.2 := by
  obtain ⟨ds, h', e, F, o⟩ := copyFromParts_run _ h hr h1 h2
  unfold evkParts at F e
  rcases F with _ | ⟨H1, _ | ⟨H2, _ | _⟩⟩
  rename_i b' s'
  refine ⟨b', s', h', ?_, H1.2, H2.2, o⟩
  obtain ⟨y1, g1, e1, e⟩ := bind_inv e
  obtain ⟨l1, g1', e1', f1⟩ := bind_inv e
  obtain ⟨y2, g2, e2, e⟩ := bind_inv e1'
  obtain ⟨l2, g2', e2', f2⟩ := bind_inv e
  rw [copyFromParts] at e2'
  simp only [pure_run, Option.some.injEq, Prod.mk.injEq] at f1 f2 e2'
  obtain ⟨rfl, rfl⟩ := e2'
  obtain ⟨rfl, rfl⟩ := f2
  obtain ⟨q, rfl⟩ := f1
  simp only [List.cons.injEq, and_true] at q
  obtain ⟨rfl, rfl⟩ := q
  exact (bind_run e1).trans ((bind_run e2).trans rfl)

/-- `CopyFrom` of a `tfhe.PublicKey` changes no cell outside the receiver. -/
theorem C54_pkCopyFrom_frame (h : Heap V G) (b s b₀ s₀ : Ref G) (B S : Tree V G)
    (hr : ∀ p ∈ pkParts b s b₀ s₀ B S, p.Ready h)
    (h1 : (pkParts b s b₀ s₀ B S).Pairwise fun p q => Disjoint (p.cells h) (q.cells h))
    (h2 : ∀ p ∈ pkParts b s b₀ s₀ B S, ∀ q ∈ pkParts b s b₀ s₀ B S, Disjoint (p.cells h) (Copies.cells q.k.ty h q.r.s)) :
    ∃ b' s' h', pkCopyFrom (b, s) (b₀, s₀) h = some ((b', s'), h') ∧
      Holds Kind.lwePK.ty h' b' B ∧ Holds Kind.glwePK.ty h' s' S ∧
      ∀ a, (∀ p ∈ pkParts b s b₀ s₀ B S, a ∉ p.cells h) → h'.arr a.1 a.2 = h.arr a.1 a.2 := by
  obtain ⟨ds, h', e, F, o⟩ := copyFromParts_run _ h hr h1 h2
  unfold pkParts at F e
  rcases F with _ | ⟨H1, _ | ⟨H2, _ | _⟩⟩
  rename_i b' s'
  refine ⟨b', s', h', ?_, H1.2, H2.2, o⟩
  obtain ⟨y1, g1, e1, e⟩ := bind_inv e
  obtain ⟨l1, g1', e1', f1⟩ := bind_inv e
  obtain ⟨y2, g2, e2, e⟩ := bind_inv e1'
  obtain ⟨l2, g2', e2', f2⟩ := bind_inv e
  rw [copyFromParts] at e2'
  simp only [pure_run, Option.some.injEq, Prod.mk.injEq] at f1 f2 e2'
  obtain ⟨rfl, rfl⟩ := e2'
  obtain ⟨rfl, rfl⟩ := f2
  obtain ⟨q, rfl⟩ := f1
  simp only [List.cons.injEq, and_true] at q
  obtain ⟨rfl, rfl⟩ := q
  exact (bind_run e1).trans ((bind_run e2).trans rfl)

/-- `Clear` of a `mktfhe.EvaluationKey`: the numbers of all four parts are zero, the gadget parameters and lengths as before, and
no other cell has changed. -/
theorem C54_mkEvkClear [Zero V] (h : Heap V G) (b s c u : Ref G) (B S C U : Tree V G)
    (hr : ∀ p ∈ mkEvkParts b s c u b s c u B S C U, Holds p.k.ty h p.d p.T ∧ Tidy p.k.ty h p.d.s)
    (h1 : (mkEvkParts b s c u b s c u B S C U).Pairwise fun p q => Disjoint (p.cells h) (q.cells h)) :
    ∃ h', mkEvkClear ((b, s), c, u) h = some ((), h') ∧
      Holds Kind.brk.ty h' b (zeros Kind.brk.ty B) ∧ Holds Kind.lweKSK.ty h' s (zeros Kind.lweKSK.ty S) ∧
      Holds Kind.fftGLev.ty h' c (zeros Kind.fftGLev.ty C) ∧ Holds Kind.fftUni.ty h' u (zeros Kind.fftUni.ty U) ∧
      ∀ a, (∀ p ∈ mkEvkParts b s c u b s c u B S C U, a ∉ p.cells h) → h'.arr a.1 a.2 = h.arr a.1 a.2 := by
  obtain ⟨h', e, F, o⟩ := clearParts_run _ h hr h1
  refine ⟨h', ?_, F ⟨.brk, b, b, B⟩ (by simp [mkEvkParts]), F ⟨.lweKSK, s, s, S⟩ (by simp [mkEvkParts]),
    F ⟨.fftGLev, c, c, C⟩ (by simp [mkEvkParts]), F ⟨.fftUni, u, u, U⟩ (by simp [mkEvkParts]), o⟩
  unfold mkEvkParts at e
  obtain ⟨⟨⟩, g1, e1, e⟩ := bind_inv e
  obtain ⟨⟨⟩, g2, e2, e⟩ := bind_inv e
  obtain ⟨⟨⟩, g3, e3, e⟩ := bind_inv e
  obtain ⟨⟨⟩, g4, e4, e⟩ := bind_inv e
  rw [clearParts] at e
  simp only [pure_run, Option.some.injEq, Prod.mk.injEq, true_and] at e
  subst e
  exact (bind_run ((bind_run e1).trans e2)).trans ((bind_run e3).trans e4)

/-- `Clear` of a `tfhe.EvaluationKey` changes no cell outside the key. -/
theorem C54_evkClear_frame [Zero V] (h : Heap V G) (b s : Ref G) (B S : Tree V G)
    (hr : ∀ p ∈ evkParts b s b s B S, Holds p.k.ty h p.d p.T ∧ Tidy p.k.ty h p.d.s)
    (h1 : (evkParts b s b s B S).Pairwise fun p q => Disjoint (p.cells h) (q.cells h)) :
    ∃ h', evkClear (b, s) h = some ((), h') ∧
      Holds Kind.brk.ty h' b (zeros Kind.brk.ty B) ∧ Holds Kind.lweKSK.ty h' s (zeros Kind.lweKSK.ty S) ∧
      ∀ a, (∀ p ∈ evkParts b s b s B S, a ∉ p.cells h) → h'.arr a.1 a.2 = h.arr a.1 a.2 := by
  obtain ⟨h', e, F, o⟩ := clearParts_run _ h hr h1
  refine ⟨h', ?_, F ⟨.brk, b, b, B⟩ (by simp [evkParts]), F ⟨.lweKSK, s, s, S⟩ (by simp [evkParts]), o⟩
  unfold evkParts at e
  obtain ⟨⟨⟩, g1, e1, e⟩ := bind_inv e
  obtain ⟨⟨⟩, g2, e2, e⟩ := bind_inv e
  rw [clearParts] at e
  simp only [pure_run, Option.some.injEq, Prod.mk.injEq, true_and] at e
  subst e
  exact (bind_run e1).trans e2

/-- `Clear` of a `tfhe.PublicKey` changes no cell outside the key. -/
theorem C54_pkClear_frame [Zero V] (h : Heap V G) (b s : Ref G) (B S : Tree V G)
    (hr : ∀ p ∈ pkParts b s b s B S, Holds p.k.ty h p.d p.T ∧ Tidy p.k.ty h p.d.s)
    (h1 : (pkParts b s b s B S).Pairwise fun p q => Disjoint (p.cells h) (q.cells h)) :
    ∃ h', pkClear (b, s) h = some ((), h') ∧
      Holds Kind.lwePK.ty h' b (zeros Kind.lwePK.ty B) ∧ Holds Kind.glwePK.ty h' s (zeros Kind.glwePK.ty S) ∧
      ∀ a, (∀ p ∈ pkParts b s b s B S, a ∉ p.cells h) → h'.arr a.1 a.2 = h.arr a.1 a.2 := by
  obtain ⟨h', e, F, o⟩ := clearParts_run _ h hr h1
  refine ⟨h', ?_, F ⟨.lwePK, b, b, B⟩ (by simp [pkParts]), F ⟨.glwePK, s, s, S⟩ (by simp [pkParts]), o⟩
  unfold pkParts at e
  obtain ⟨⟨⟩, g1, e1, e⟩ := bind_inv e
  obtain ⟨⟨⟩, g2, e2, e⟩ := bind_inv e
  rw [clearParts] at e
  simp only [pure_run, Option.some.injEq, Prod.mk.injEq, true_and] at e
  subst e
  exact (bind_run e1).trans e2

/-! ### A key -/

/-- A memory with two keys whose parts are one element long at every level, the numbers `7` and `0`.  Arrays `20 m` to `20 m + 4`
belong to part `m` of the first key, `20 m + 10` to `20 m + 14` to that of the second.  Array `a` refers to array `a + 1`, down to
the level where the part has its numbers.  The gadget parameters in the first key are `2`, in the second `1`. -/
def keysHeap : Heap ℕ ℕ :=
  ⟨100, fun a _ => if a % 10 = (if a / 20 = 0 then 4 else if a / 20 = 3 then 3 else 2) then .val (if a % 20 < 10 then 7 else 0)
    else .ref ⟨some (if a % 20 < 10 then 2 else 1), ⟨a + 1, 0, 1⟩⟩⟩

/-- What the parts of the first key hold. -/
def keysTrees : Tree ℕ ℕ × Tree ℕ ℕ × Tree ℕ ℕ × Tree ℕ ℕ :=
  (.node (some 2) [.node (some 2) [.node (some 2) [.node none [.words [7]]]]], .node (some 2) [.node (some 2) [.words [7]]],
    .node (some 2) [.node none [.words [7]]], .node (some 2) [.node (some 2) [.node none [.words [7]]]])

/-- The parts of the two keys. -/
def keysParts : List (Part ℕ ℕ) :=
  mkEvkParts ⟨some 1, ⟨10, 0, 1⟩⟩ ⟨some 1, ⟨30, 0, 1⟩⟩ ⟨some 1, ⟨50, 0, 1⟩⟩ ⟨some 1, ⟨70, 0, 1⟩⟩
    ⟨some 2, ⟨0, 0, 1⟩⟩ ⟨some 2, ⟨20, 0, 1⟩⟩ ⟨some 2, ⟨40, 0, 1⟩⟩ ⟨some 2, ⟨60, 0, 1⟩⟩
    keysTrees.1 keysTrees.2.1 keysTrees.2.2.1 keysTrees.2.2.2

set_option maxHeartbeats 1000000 in
theorem keys_ready : ∀ p ∈ keysParts, p.Ready keysHeap := by
  intro p hp
  simp only [keysParts, mkEvkParts, List.mem_cons, List.not_mem_nil, or_false] at hp
  rcases hp with rfl | rfl | rfl | rfl
  all_goals refine ⟨?_, ?_, ?_⟩
  all_goals first
    | simp [keysTrees, Holds, Kind.ty, keysHeap]; done
    | simp [keysTrees, HasShape, Kind.ty, keysHeap]; done
    | (simp only [Tidy, Kind.ty, keysHeap]; simp [Copies.cells, span, Set.disjoint_left])

theorem keys_disjoint : keysParts.Pairwise fun p q => Disjoint (p.cells keysHeap) (q.cells keysHeap) := by
  simp [keysParts, mkEvkParts, keysTrees, Kind.ty, keysHeap, Part.cells, Copies.cells, span, Set.disjoint_left]
  repeat' constructor
  all_goals omega

theorem keys_apart : ∀ p ∈ keysParts, ∀ q ∈ keysParts, Disjoint (p.cells keysHeap) (Copies.cells q.k.ty keysHeap q.r.s) := by
  simp [keysParts, mkEvkParts, keysTrees, Kind.ty, keysHeap, Part.cells, Copies.cells, span, Set.disjoint_left]
  repeat' constructor
  all_goals omega

/-- What C54 asks of `CopyFrom` of a `mktfhe.EvaluationKey`. -/
def C54_mkEvkCopyFrom_claim : Prop :=
  ∀ (h : Heap ℕ ℕ) (b s c u b₀ s₀ c₀ u₀ : Ref ℕ) (B S C U : Tree ℕ ℕ),
    (∀ p ∈ mkEvkParts b s c u b₀ s₀ c₀ u₀ B S C U, p.Ready h) →
    ((mkEvkParts b s c u b₀ s₀ c₀ u₀ B S C U).Pairwise fun p q => Disjoint (p.cells h) (q.cells h)) →
    (∀ p ∈ mkEvkParts b s c u b₀ s₀ c₀ u₀ B S C U, ∀ q ∈ mkEvkParts b s c u b₀ s₀ c₀ u₀ B S C U,
      Disjoint (p.cells h) (Copies.cells q.k.ty h q.r.s)) →
    ∃ b' s' c' u' h', mkEvkCopyFrom ((b, s), c, u) ((b₀, s₀), c₀, u₀) h = some (((b', s'), c', u'), h') ∧
      Holds Kind.brk.ty h' b' B ∧ Holds Kind.lweKSK.ty h' s' S ∧ Holds Kind.fftGLev.ty h' c' C ∧
      Holds Kind.fftUni.ty h' u' U

/-- It does not hold: the relinearization key of the receiver keeps its gadget parameters. -/
theorem C54_mkEvkCopyFrom_false : ¬ C54_mkEvkCopyFrom_claim := by
  intro hc
  obtain ⟨b', s', c', u', h', e, -, -, -, H⟩ := hc keysHeap _ _ _ _ _ _ _ _ _ _ _ _ keys_ready keys_disjoint keys_apart
  obtain ⟨b2, s2, c2, u2, h2, e2, -, -, -, H2, -⟩ :=
    C54_mkEvkCopyFrom_partial keysHeap _ _ _ _ _ _ _ _ _ _ _ _ keys_ready keys_disjoint keys_apart
  rw [e] at e2
  simp only [Option.some.injEq, Prod.mk.injEq] at e2
  obtain ⟨⟨-, -, rfl⟩, rfl⟩ := e2
  have b1 := H.1
  have b2 := H2.1
  rw [← b2] at b1
  simp at b1

/-- The second key receives the numbers of the first. -/
example : ∃ b' s' c' u' h', mkEvkCopyFrom ((⟨some 1, ⟨10, 0, 1⟩⟩, ⟨some 1, ⟨30, 0, 1⟩⟩), ⟨some 1, ⟨50, 0, 1⟩⟩, ⟨some 1, ⟨70, 0, 1⟩⟩)
      ((⟨some 2, ⟨0, 0, 1⟩⟩, ⟨some 2, ⟨20, 0, 1⟩⟩), ⟨some 2, ⟨40, 0, 1⟩⟩, ⟨some 2, ⟨60, 0, 1⟩⟩) keysHeap
        = some (((b', s'), c', u'), h') ∧
    Holds Kind.brk.ty h' b' keysTrees.1 ∧
    Holds Kind.fftUni.ty h' u' (.node (some 1) [.node (some 2) [.node none [.words [7]]]]) ∧ h'.arr 3 0 = keysHeap.arr 3 0 := by
  obtain ⟨b2, s2, c2, u2, h2, e2, H1, -, -, H2, o⟩ :=
    C54_mkEvkCopyFrom_partial keysHeap _ _ _ _ _ _ _ _ _ _ _ _ keys_ready keys_disjoint keys_apart
  refine ⟨b2, s2, c2, u2, h2, e2, H1, H2, o (3, 0) ?_⟩
  simp [mkEvkParts, keysTrees, Kind.ty, keysHeap, Part.cells, Copies.cells, span]
end Tfhe.Copies
