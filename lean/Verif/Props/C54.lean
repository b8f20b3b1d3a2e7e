import Verif.Model.Copies
import Mathlib.Data.Set.Lattice
import Mathlib.Data.List.Basic

/-!
# C54: copies are equal to the original and share no memory with it

The specification: what a struct holds is a tree of numbers and gadget parameters, and it occupies a set of
cells.  `Copy` returns a struct that holds the same, all of whose cells are new.  `CopyFrom` makes the receiver
hold what the argument holds, and writes to no other cell than those of the receiver.  `Clear` sets the
numbers to zero.
-/
namespace Tfhe.Copies

variable {V G : Type}

/-! ### What structs hold and where -/

/-- The numbers and the gadget parameters of a struct. -/
inductive Tree (V G : Type) where
  | words (l : List V)
  | node (g : Option G) (l : List (Tree V G))

/-- The types: a slice of numbers, or a slice of structs with (`true`) or without (`false`) gadget parameters. -/
inductive Ty where
  | leaf
  | node (gad : Bool) (t : Ty)

/-- The struct `r` holds the tree. -/
def Holds : Ty → Heap V G → Ref G → Tree V G → Prop
  | .leaf, h, r, .words l => r.s.len = l.length ∧ ∀ i (hi : i < l.length), h.arr r.s.arr (r.s.off + i) = .val l[i]
  | .node b t, h, r, .node g l => g = (if b then r.g else none) ∧ r.s.len = l.length ∧
      ∀ i (hi : i < l.length), ∃ r', h.arr r.s.arr (r.s.off + i) = .ref r' ∧ Holds t h r' l[i]
  | _, _, _, _ => False

/-- The lengths of the slices are those of the tree. -/
def HasShape : Ty → Heap V G → Slice → Tree V G → Prop
  | .leaf, _, s, .words l => s.len = l.length
  | .node _ t, h, s, .node _ l => s.len = l.length ∧
      ∀ i (hi : i < l.length), ∃ r', h.arr s.arr (s.off + i) = .ref r' ∧ HasShape t h r'.s l[i]
  | _, _, _, _ => False

/-- The cells of a slice. -/
def span (s : Slice) : Set (ℕ × ℕ) := {p | p.1 = s.arr ∧ ∃ i < s.len, p.2 = s.off + i}

/-- The cells of a struct. -/
def cells : Ty → Heap V G → Slice → Set (ℕ × ℕ)
  | .leaf, _, s => span s
  | .node _ t, h, s => span s ∪ {p | ∃ i < s.len, ∃ r', h.arr s.arr (s.off + i) = .ref r' ∧ p ∈ cells t h r'.s}

/-- The parts of a struct do not overlap. -/
def Tidy : Ty → Heap V G → Slice → Prop
  | .leaf, _, _ => True
  | .node _ t, h, s =>
      (∀ i < s.len, ∀ r', h.arr s.arr (s.off + i) = .ref r' → Tidy t h r'.s ∧ Disjoint (span s) (cells t h r'.s)) ∧
      ∀ i < s.len, ∀ j < s.len, i ≠ j → ∀ r' r'', h.arr s.arr (s.off + i) = .ref r' →
        h.arr s.arr (s.off + j) = .ref r'' → Disjoint (cells t h r'.s) (cells t h r''.s)

/-- The same tree with zeros. -/
def zeros [Zero V] : Ty → Tree V G → Tree V G
  | .leaf, .words l => .words (List.replicate l.length 0)
  | .node _ t, .node g l => .node g (l.map (zeros t))
  | _, T => T

/-- The types of the library. -/
def Kind.ty : Kind → Ty
  | .poly | .fftPoly | .lweSK | .lwe | .mkLWE => .leaf
  | .glweSK | .glwe | .fftGLWESK | .fftGLWE | .mkGLWE | .mkFFTGLWE | .lut => .node false .leaf
  | .glwePK | .lwePK => .node false (.node false .leaf)
  | .lev => .node true .leaf
  | .gsw | .lweKSK => .node true (.node true .leaf)
  | .glev | .fftGLev => .node true (.node false .leaf)
  | .ggsw | .fftGGSW | .glweKSK | .uni | .fftUni => .node true (.node true (.node false .leaf))
  | .brk => .node true (.node true (.node true (.node false .leaf)))

/-! ### Lemmas -/

/-- The two memories agree on a set of cells. -/
def Same (S : Set (ℕ × ℕ)) (h h' : Heap V G) : Prop := ∀ p ∈ S, h'.arr p.1 p.2 = h.arr p.1 p.2

theorem span_cells (t : Ty) (h : Heap V G) (s : Slice) : span s ⊆ cells t h s := by
  cases t with
  | leaf => exact fun _ => id
  | node => exact Set.subset_union_left

theorem mem_span {s : Slice} {i : ℕ} (hi : i < s.len) : (s.arr, s.off + i) ∈ span s := ⟨rfl, i, hi, rfl⟩

theorem cells_elem {b : Bool} {t : Ty} {h : Heap V G} {s : Slice} {i : ℕ} (hi : i < s.len) {r' : Ref G}
    (e : h.arr s.arr (s.off + i) = .ref r') : cells t h r'.s ⊆ cells (.node b t) h s :=
  fun _ hp => Or.inr ⟨i, hi, r', e, hp⟩

theorem cells_same {t : Ty} {h h' : Heap V G} {s : Slice} (H : Same (cells t h s) h h') :
    cells t h' s = cells t h s := by
  induction t generalizing s with
  | leaf => rfl
  | node b t ih =>
    have hh : ∀ i < s.len, h'.arr s.arr (s.off + i) = h.arr s.arr (s.off + i) := fun i hi =>
      H _ (span_cells _ _ _ (mem_span hi))
    simp only [cells]
    congr 1
    ext p
    constructor
    · rintro ⟨i, hi, r', e, hp⟩
      rw [hh i hi] at e
      exact ⟨i, hi, r', e, by rwa [ih fun q hq => H q (cells_elem hi e hq)] at hp⟩
    · rintro ⟨i, hi, r', e, hp⟩
      exact ⟨i, hi, r', by rw [hh i hi, e], by rwa [ih fun q hq => H q (cells_elem hi e hq)]⟩

theorem holds_same {t : Ty} {h h' : Heap V G} {r : Ref G} {T : Tree V G} (H : Same (cells t h r.s) h h')
    (hT : Holds t h r T) : Holds t h' r T := by
  induction t generalizing r T with
  | leaf =>
    cases T with
    | words l =>
      refine ⟨hT.1, fun i hi => ?_⟩
      rw [H _ (mem_span (hT.1 ▸ hi)), hT.2 i hi]
    | node => exact hT
  | node b t ih =>
    cases T with
    | words l => exact hT
    | node g l =>
      refine ⟨hT.1, hT.2.1, fun i hi => ?_⟩
      obtain ⟨r', e, hr⟩ := hT.2.2 i hi
      have hi' : i < r.s.len := hT.2.1 ▸ hi
      exact ⟨r', by rw [H _ (span_cells _ _ _ (mem_span hi')), e],
        ih (fun q hq => H q (cells_elem hi' e hq)) hr⟩

theorem shape_same {t : Ty} {h h' : Heap V G} {s : Slice} {T : Tree V G} (H : Same (cells t h s) h h')
    (hT : HasShape t h s T) : HasShape t h' s T := by
  induction t generalizing s T with
  | leaf => cases T <;> exact hT
  | node b t ih =>
    cases T with
    | words l => exact hT
    | node g l =>
      refine ⟨hT.1, fun i hi => ?_⟩
      obtain ⟨r', e, hr⟩ := hT.2 i hi
      have hi' : i < s.len := hT.1 ▸ hi
      exact ⟨r', by rw [H _ (span_cells _ _ _ (mem_span hi')), e],
        ih (fun q hq => H q (cells_elem hi' e hq)) hr⟩

theorem tidy_same {t : Ty} {h h' : Heap V G} {s : Slice} (H : Same (cells t h s) h h')
    (hT : Tidy t h s) : Tidy t h' s := by
  induction t generalizing s with
  | leaf => trivial
  | node b t ih =>
    have hh : ∀ i < s.len, h'.arr s.arr (s.off + i) = h.arr s.arr (s.off + i) := fun i hi =>
      H _ (span_cells _ _ _ (mem_span hi))
    refine ⟨fun i hi r' e => ?_, fun i hi j hj ij r' r'' e e' => ?_⟩
    · rw [hh i hi] at e
      have Hs : Same (cells t h r'.s) h h' := fun q hq => H q (cells_elem hi e hq)
      rw [cells_same Hs]
      exact ⟨ih Hs (hT.1 i hi r' e).1, (hT.1 i hi r' e).2⟩
    · rw [hh i hi] at e
      rw [hh j hj] at e'
      rw [cells_same fun q hq => H q (cells_elem hi e hq), cells_same fun q hq => H q (cells_elem hj e' hq)]
      exact hT.2 i hi j hj ij r' r'' e e'

theorem forN_inv {f : ℕ → M V G Unit} {Inv : ℕ → Heap V G → Prop} {n : ℕ}
    (hf : ∀ i < n, ∀ h, Inv i h → ∃ h', f i h = some ((), h') ∧ Inv (i + 1) h') {h : Heap V G} (h0 : Inv 0 h) :
    ∃ h', forN n f h = some ((), h') ∧ Inv n h' := by
  induction n with
  | zero => exact ⟨h, rfl, h0⟩
  | succ n ih =>
    obtain ⟨h1, e1, i1⟩ := ih fun i hi => hf i (by omega)
    obtain ⟨h2, e2, i2⟩ := hf n (by omega) h1 i1
    refine ⟨h2, ?_, i2⟩
    show (forN n f h).bind _ = _
    rw [e1]
    exact e2

theorem bind_run {A B : Type} {p : M V G A} {f : A → M V G B} {h h' : Heap V G} {a : A}
    (e : p h = some (a, h')) : (p >>= f) h = f a h' := by
  show (p h).bind _ = _
  rw [e]
  rfl

theorem pure_run {A : Type} (a : A) (h : Heap V G) : (pure a : M V G A) h = some (a, h) := rfl

/-- The memory after an assignment. -/
def wr (h : Heap V G) (s : Slice) (i : ℕ) (c : Cell V G) : Heap V G :=
  { h with arr := fun a j => if a = s.arr ∧ j = s.off + i then c else h.arr a j }

theorem put_run {s : Slice} {i : ℕ} (hi : i < s.len) (c : Cell V G) (h : Heap V G) :
    put s i c h = some ((), wr h s i c) := by simp [put, hi, wr]

theorem get_run {s : Slice} {i : ℕ} (hi : i < s.len) (h : Heap V G) :
    get s i h = some (h.arr s.arr (s.off + i), h) := by simp [get, hi]

theorem getRef_run {s : Slice} {i : ℕ} (hi : i < s.len) {h : Heap V G} {r : Ref G}
    (e : h.arr s.arr (s.off + i) = .ref r) : getRef s i h = some (r, h) := by simp [getRef, hi, e]

theorem wr_self (h : Heap V G) (s : Slice) (i : ℕ) (c : Cell V G) : (wr h s i c).arr s.arr (s.off + i) = c := by
  simp [wr]

theorem wr_ne (h : Heap V G) (s : Slice) (i : ℕ) (c : Cell V G) {p : ℕ × ℕ} (hp : p ≠ (s.arr, s.off + i)) :
    (wr h s i c).arr p.1 p.2 = h.arr p.1 p.2 := by
  simp only [wr]
  rw [if_neg]
  rintro ⟨a, b⟩
  exact hp (Prod.ext a b)

/-! ### `Copy` -/

/-- The method returns a struct that holds the same, in new cells only, and leaves the other cells alone. -/
def CopyOK (t : Ty) (f : Ref G → M V G (Ref G)) : Prop :=
  ∀ (h : Heap V G) (r : Ref G) (T : Tree V G), Holds t h r T → (∀ p ∈ cells t h r.s, p.1 < h.next) →
    ∃ r' h', f r h = some (r', h') ∧ Holds t h' r' T ∧ h.next ≤ h'.next ∧ (∀ a < h.next, h'.arr a = h.arr a) ∧
      (∀ p ∈ cells t h' r'.s, h.next ≤ p.1 ∧ p.1 < h'.next) ∧ Tidy t h' r'.s

theorem vecCopy_run [Zero V] (h : Heap V G) (s : Slice) (hs : ∀ p ∈ span s, p.1 < h.next) :
    ∃ h', vecCopy s h = some (⟨h.next, 0, s.len⟩, h') ∧ h'.next = h.next + 1 ∧ (∀ a < h.next, h'.arr a = h.arr a) ∧
      ∀ j < s.len, h'.arr h.next j = h.arr s.arr (s.off + j) := by
  obtain ⟨h', e, i1, i2, i3⟩ := forN_inv (n := s.len) (V := V) (G := G)
    (f := fun i => do put ⟨h.next, 0, s.len⟩ i (← get s i))
    (Inv := fun i h1 => h1.next = h.next + 1 ∧ (∀ a < h.next, h1.arr a = h.arr a) ∧
      ∀ j < i, h1.arr h.next j = h.arr s.arr (s.off + j))
    (h := ⟨h.next + 1, fun a j => if a = h.next then .val 0 else h.arr a j⟩)
    (fun i hi h1 hI => by
      obtain ⟨n1, o1, c1⟩ := hI
      refine ⟨_, (bind_run (get_run hi h1)).trans (put_run (by exact hi) _ _), n1, fun a ha => ?_, fun j hj => ?_⟩
      · funext j
        rw [← o1 a ha]
        exact wr_ne h1 _ i _ (p := (a, j)) (by intro e; simp only [Prod.mk.injEq] at e; omega)
      · rcases Nat.lt_succ_iff_lt_or_eq.1 hj with hj | rfl
        · rw [← c1 j hj]
          exact wr_ne h1 _ i _ (p := (h.next, j)) (by intro e; simp only [Prod.mk.injEq] at e; omega)
        · have := wr_self h1 ⟨h.next, 0, s.len⟩ j (h1.arr s.arr (s.off + j))
          simp only [Nat.zero_add] at this
          rw [this, o1 _ (hs _ (mem_span hi))])
    ⟨rfl, fun a ha => by funext j; simp [Nat.ne_of_lt ha], fun j hj => by omega⟩
  refine ⟨h', ?_, i1, i2, i3⟩
  unfold vecCopy
  exact (bind_run (p := make (.val 0) s.len) rfl).trans ((bind_run e).trans rfl)

theorem copyOK_leaf [Zero V] : CopyOK (V := V) (G := G) .leaf copyLeaf := by
  intro h r T hT hs
  cases T with
  | node => exact hT.elim
  | words l =>
    obtain ⟨h', e, n, o, c⟩ := vecCopy_run h r.s hs
    refine ⟨⟨none, ⟨h.next, 0, r.s.len⟩⟩, h', (bind_run e).trans rfl, ⟨hT.1, fun i hi => ?_⟩, by omega, o, ?_, trivial⟩
    · rw [Nat.zero_add, c i (hT.1 ▸ hi), hT.2 i hi]
    · rintro p ⟨hp, -⟩
      simp only at hp
      omega

theorem copyElems_run {t : Ty} {f : Ref G → M V G (Ref G)} (hf : CopyOK t f) (h : Heap V G) (s : Slice)
    (l : List (Tree V G)) (hl : s.len = l.length)
    (hH : ∀ i (hi : i < l.length), ∃ r', h.arr s.arr (s.off + i) = .ref r' ∧ Holds t h r' l[i] ∧
      ∀ p ∈ cells t h r'.s, p.1 < h.next)
    (hs : ∀ p ∈ span s, p.1 < h.next) :
    ∃ s' h', copyElems f s h = some (s', h') ∧ s'.len = l.length ∧
      (∀ i (hi : i < l.length), ∃ r', h'.arr s'.arr (s'.off + i) = .ref r' ∧ Holds t h' r' l[i]) ∧
      h.next ≤ h'.next ∧ (∀ a < h.next, h'.arr a = h.arr a) ∧
      (∀ p ∈ cells (.node true t) h' s', h.next ≤ p.1 ∧ p.1 < h'.next) ∧ Tidy (.node true t) h' s' := by
  set s' : Slice := ⟨h.next, 0, s.len⟩ with hs'
  obtain ⟨h', e, i1, i2, ρ, i3⟩ := forN_inv (n := s.len) (V := V) (G := G)
    (f := fun i => do put s' i (.ref (← f (← getRef s i))))
    (Inv := fun i h1 => h.next + 1 ≤ h1.next ∧ (∀ a < h.next, h1.arr a = h.arr a) ∧ ∃ ρ : ℕ → Ref G,
      ∀ j < i, h1.arr h.next j = .ref (ρ j) ∧ (∀ hj : j < l.length, Holds t h1 (ρ j) l[j]) ∧
        Tidy t h1 (ρ j).s ∧ (∀ p ∈ cells t h1 (ρ j).s, h.next + 1 ≤ p.1 ∧ p.1 < h1.next) ∧
        ∀ k < j, Disjoint (cells t h1 (ρ k).s) (cells t h1 (ρ j).s))
    (h := ⟨h.next + 1, fun a j => if a = h.next then .ref ⟨none, ⟨0, 0, 0⟩⟩ else h.arr a j⟩)
    (fun i hi h1 hI => by
      obtain ⟨n1, o1, ρ, c1⟩ := hI
      have hi' : i < l.length := hl ▸ hi
      obtain ⟨r, er, hr, hc⟩ := hH i hi'
      have er1 : h1.arr s.arr (s.off + i) = .ref r := by rw [o1 _ (hs _ (mem_span hi)), er]
      have S1 : Same (cells t h r.s) h h1 := fun p hp => by rw [o1 _ (hc p hp)]
      obtain ⟨r', h2, e2, H2, n2, o2, b2, T2⟩ := hf h1 r _ (holds_same S1 hr)
        (by rw [cells_same S1]; exact fun p hp => by have := hc p hp; omega)
      have W : ∀ p : ℕ × ℕ, h.next + 1 ≤ p.1 → (wr h2 s' i (.ref r')).arr p.1 p.2 = h2.arr p.1 p.2 := fun p hp =>
        wr_ne h2 s' i _ (by rintro rfl; simp only [hs'] at hp; omega)
      have Sn : Same (cells t h2 r'.s) h2 (wr h2 s' i (.ref r')) := fun p hp => W p (by have := b2 p hp; omega)
      have So : ∀ j < i, Same (cells t h1 (ρ j).s) h1 (wr h2 s' i (.ref r')) := fun j hj p hp => by
        have := (c1 j hj).2.2.2.1 p hp
        rw [W p this.1, o2 _ this.2]
      refine ⟨wr h2 s' i (.ref r'), ?_, by show h.next + 1 ≤ h2.next; omega, fun a ha => ?_,
        Function.update ρ i r', fun j hj => ?_⟩
      · exact (bind_run (getRef_run hi er1)).trans ((bind_run e2).trans (put_run (by exact hi) _ _))
      · funext j
        rw [← o1 a ha, ← o2 a (by omega)]
        exact wr_ne h2 s' i _ (p := (a, j)) (by intro e; simp only [hs', Prod.mk.injEq] at e; omega)
      · rcases Nat.lt_succ_iff_lt_or_eq.1 hj with hj | rfl
        · have hne : j ≠ i := by omega
          obtain ⟨q1, q2, q3, q4, q5⟩ := c1 j hj
          rw [Function.update_of_ne hne]
          refine ⟨?_, fun hjl => holds_same (So j hj) (q2 hjl), tidy_same (So j hj) q3, fun p hp => ?_, fun k hk => ?_⟩
          · have := wr_ne h2 s' i (.ref r') (p := (h.next, j))
              (by intro e; simp only [hs', Prod.mk.injEq] at e; omega)
            rw [← q1]
            exact this.trans (by rw [o2 _ (by show h.next < _; omega)])
          · rw [cells_same (So j hj)] at hp
            have := q4 p hp
            exact ⟨this.1, by show p.1 < h2.next; omega⟩
          · rw [Function.update_of_ne (by omega), cells_same (So j hj), cells_same (So k (by omega))]
            exact q5 k hk
        · rw [Function.update_self]
          refine ⟨?_, fun _ => holds_same Sn H2, tidy_same Sn T2, fun p hp => ?_, fun k hk => ?_⟩
          · have := wr_self h2 s' j (.ref r')
            simpa only [hs', Nat.zero_add] using this
          · rw [cells_same Sn] at hp
            have := b2 p hp
            exact ⟨by omega, this.2⟩
          · rw [Function.update_of_ne (by omega), cells_same Sn, cells_same (So k hk)]
            rw [Set.disjoint_left]
            intro p hp hp'
            have a1 := (c1 k hk).2.2.2.1 p hp
            have a2 := b2 p hp'
            omega)
    ⟨le_refl _, fun a ha => by funext j; simp [Nat.ne_of_lt ha], fun _ => ⟨none, ⟨0, 0, 0⟩⟩, fun j hj => by omega⟩
  have hcell : ∀ j < s.len, ∀ r', h'.arr s'.arr (s'.off + j) = .ref r' → r' = ρ j := by
    intro j hj r' e'
    simp only [hs', Nat.zero_add] at e'
    rw [(i3 j hj).1] at e'
    injection e' with e'
    exact e'.symm
  refine ⟨s', h', ?_, hl, fun i hi => ⟨ρ i, ?_, (i3 i (hl ▸ hi)).2.1 hi⟩, by omega, i2, ?_, ?_, ?_⟩
  · unfold copyElems
    exact (bind_run (p := make (.ref ⟨none, ⟨0, 0, 0⟩⟩) s.len) rfl).trans ((bind_run e).trans rfl)
  · simp only [hs', Nat.zero_add]
    exact (i3 i (hl ▸ hi)).1
  · rintro p (⟨hp, -⟩ | ⟨i, hi, r', e', hp⟩)
    · simp only [hs'] at hp
      omega
    · rw [hcell i hi r' e'] at hp
      have := (i3 i hi).2.2.2.1 p hp
      omega
  · intro i hi r' e'
    obtain rfl := hcell i hi r' e'
    refine ⟨(i3 i hi).2.2.1, ?_⟩
    rw [Set.disjoint_left]
    rintro p ⟨hp, -⟩ hp'
    have := (i3 i hi).2.2.2.1 p hp'
    simp only [hs'] at hp
    omega
  · intro i hi j hj ij r' r'' e' e''
    obtain rfl := hcell i hi r' e'
    obtain rfl := hcell j hj r'' e''
    rcases Nat.lt_or_gt_of_ne ij with h1 | h1
    · exact (i3 j hj).2.2.2.2 i h1
    · exact ((i3 i hi).2.2.2.2 j h1).symm

theorem copyOK_gad {t : Ty} {f : Ref G → M V G (Ref G)} (hf : CopyOK t f) : CopyOK (.node true t) (copyGad f) := by
  intro h r T hT hs
  cases T with
  | words => exact hT.elim
  | node g l =>
    obtain ⟨s', h', e, a1, a2, a3, a4, a5, a6⟩ := copyElems_run hf h r.s l hT.2.1
      (fun i hi => by
        obtain ⟨r', e, hr⟩ := hT.2.2 i hi
        exact ⟨r', e, hr, fun p hp => hs p (cells_elem (hT.2.1 ▸ hi) e hp)⟩)
      (fun p hp => hs p (span_cells _ _ _ hp))
    exact ⟨⟨r.g, s'⟩, h', (bind_run e).trans rfl, ⟨hT.1, a1, a2⟩, a3, a4, a5, a6⟩

theorem copyOK_arr {t : Ty} {f : Ref G → M V G (Ref G)} (hf : CopyOK t f) : CopyOK (.node false t) (copyArr f) := by
  intro h r T hT hs
  cases T with
  | words => exact hT.elim
  | node g l =>
    obtain ⟨s', h', e, a1, a2, a3, a4, a5, a6⟩ := copyElems_run hf h r.s l hT.2.1
      (fun i hi => by
        obtain ⟨r', e, hr⟩ := hT.2.2 i hi
        exact ⟨r', e, hr, fun p hp => hs p (cells_elem (hT.2.1 ▸ hi) e hp)⟩)
      (fun p hp => hs p (span_cells _ _ _ hp))
    exact ⟨⟨none, s'⟩, h', (bind_run e).trans rfl, ⟨hT.1, a1, a2⟩, a3, a4, a5, a6⟩

theorem copyOK_kind [Zero V] (k : Kind) : CopyOK (V := V) (G := G) k.ty k.copy := by
  cases k
  case poly | fftPoly | lweSK | lwe | mkLWE => exact copyOK_leaf
  case glweSK | glwe | fftGLWESK | fftGLWE | mkGLWE | mkFFTGLWE | lut => exact copyOK_arr copyOK_leaf
  case glwePK | lwePK => exact copyOK_arr (copyOK_arr copyOK_leaf)
  case lev => exact copyOK_gad copyOK_leaf
  case gsw | lweKSK => exact copyOK_gad (copyOK_gad copyOK_leaf)
  case glev | fftGLev => exact copyOK_gad (copyOK_arr copyOK_leaf)
  case ggsw | fftGGSW | glweKSK | uni | fftUni => exact copyOK_gad (copyOK_gad (copyOK_arr copyOK_leaf))
  case brk => exact copyOK_gad (copyOK_gad (copyOK_gad (copyOK_arr copyOK_leaf)))

/-! ### `CopyFrom` -/

/-- The method makes the receiver hold what the argument holds, in the same cells, and leaves the other cells
alone. -/
def CopyFromOK (t : Ty) (f : Ref G → Ref G → M V G (Ref G)) : Prop :=
  ∀ (h : Heap V G) (d r : Ref G) (T : Tree V G), Holds t h r T → HasShape t h d.s T → Tidy t h d.s →
    Disjoint (cells t h d.s) (cells t h r.s) →
    ∃ d' h', f d r h = some (d', h') ∧ d'.s = d.s ∧ Holds t h' d' T ∧ h'.next = h.next ∧
      (∀ p ∉ cells t h d.s, h'.arr p.1 p.2 = h.arr p.1 p.2) ∧ cells t h' d.s = cells t h d.s ∧ Tidy t h' d.s

theorem goCopy_run (h : Heap V G) (d s : Slice) (hl : d.len = s.len) (hd : Disjoint (span d) (span s)) :
    ∃ h', goCopy d s h = some ((), h') ∧ h'.next = h.next ∧ (∀ p ∉ span d, h'.arr p.1 p.2 = h.arr p.1 p.2) ∧
      ∀ j < d.len, h'.arr d.arr (d.off + j) = h.arr s.arr (s.off + j) := by
  obtain ⟨h', e, i1, i2, i3⟩ := forN_inv (n := min d.len s.len) (V := V) (G := G)
    (f := fun i => do put d i (← get s i))
    (Inv := fun i h1 => h1.next = h.next ∧ (∀ p ∉ span d, h1.arr p.1 p.2 = h.arr p.1 p.2) ∧
      ∀ j < i, h1.arr d.arr (d.off + j) = h.arr s.arr (s.off + j))
    (h := h)
    (fun i hi h1 hI => by
      obtain ⟨n1, o1, c1⟩ := hI
      have hid : i < d.len := by omega
      have his : i < s.len := by omega
      refine ⟨_, (bind_run (get_run his h1)).trans (put_run hid _ _), n1, fun p hp => ?_, fun j hj => ?_⟩
      · rw [← o1 p hp]
        exact wr_ne h1 d i _ (by rintro rfl; exact hp (mem_span hid))
      · rcases Nat.lt_succ_iff_lt_or_eq.1 hj with hj | rfl
        · rw [← c1 j hj]
          exact wr_ne h1 d i _ (p := (d.arr, d.off + j)) (by intro e; simp only [Prod.mk.injEq] at e; omega)
        · rw [wr_self]
          exact o1 _ fun hp => Set.disjoint_left.1 hd hp (mem_span his))
    ⟨rfl, fun _ _ => rfl, fun j hj => by omega⟩
  exact ⟨h', e, i1, i2, fun j hj => i3 j (by omega)⟩

theorem copyFromOK_leaf : CopyFromOK (V := V) (G := G) .leaf copyFromLeaf := by
  intro h d r T hT hS _ hd
  cases T with
  | node => exact hT.elim
  | words l =>
    obtain ⟨h', e, n, o, c⟩ := goCopy_run h d.s r.s (Eq.trans hS hT.1.symm) hd
    refine ⟨d, h', (bind_run e).trans rfl, rfl, ⟨hS, fun i hi => ?_⟩, n, o, rfl, trivial⟩
    rw [c i (by rw [show d.s.len = l.length from hS]; exact hi), hT.2 i hi]

theorem copyFromElems_run {t : Ty} {f : Ref G → Ref G → M V G (Ref G)} (hf : CopyFromOK t f) (h : Heap V G)
    (d s : Slice) (l : List (Tree V G)) (hdl : d.len = l.length) (hsl : s.len = l.length)
    (hH : ∀ i (hi : i < l.length), ∃ r', h.arr s.arr (s.off + i) = .ref r' ∧ Holds t h r' l[i])
    (hS : ∀ i (hi : i < l.length), ∃ r', h.arr d.arr (d.off + i) = .ref r' ∧ HasShape t h r'.s l[i])
    (hT : Tidy (.node true t) h d) (hd : Disjoint (cells (.node true t) h d) (cells (.node true t) h s)) :
    ∃ h', copyFromElems f d s h = some ((), h') ∧ h'.next = h.next ∧
      (∀ p ∉ cells (.node true t) h d, h'.arr p.1 p.2 = h.arr p.1 p.2) ∧
      (∀ i (hi : i < l.length), ∃ r', h'.arr d.arr (d.off + i) = .ref r' ∧ Holds t h' r' l[i]) ∧
      cells (.node true t) h' d = cells (.node true t) h d ∧ Tidy (.node true t) h' d := by
  have hS' : ∀ i, ∃ r', ∀ hi : i < l.length, h.arr d.arr (d.off + i) = .ref r' ∧ HasShape t h r'.s l[i] := by
    intro i
    by_cases hi : i < l.length
    · obtain ⟨r', hr⟩ := hS i hi
      exact ⟨r', fun _ => hr⟩
    · exact ⟨⟨none, ⟨0, 0, 0⟩⟩, fun h => absurd h hi⟩
  choose δ hδ using hS'
  have hhead : ∀ i < l.length, ∀ j < l.length, (d.arr, d.off + i) ∉ cells t h (δ j).s := fun i hi j hj hm =>
    Set.disjoint_left.1 (hT.1 j (hdl ▸ hj) _ (hδ j hj).1).2 (mem_span (hdl ▸ hi)) hm
  obtain ⟨h', e, i1, i2, i3⟩ := forN_inv (n := d.len) (V := V) (G := G)
    (f := fun i => do
      let a ← getRef d i
      let x ← getRef s i
      put d i (.ref (← f a x)))
    (Inv := fun i h1 => h1.next = h.next ∧
      (∀ p : ℕ × ℕ, (∀ j < i, p ≠ (d.arr, d.off + j)) → (∀ j < i, p ∉ cells t h (δ j).s) →
        h1.arr p.1 p.2 = h.arr p.1 p.2) ∧
      ∀ j < i, ∃ r', h1.arr d.arr (d.off + j) = .ref r' ∧ r'.s = (δ j).s ∧
        (∀ hj : j < l.length, Holds t h1 r' l[j]) ∧ cells t h1 r'.s = cells t h (δ j).s ∧ Tidy t h1 r'.s)
    (h := h)
    (fun i hi h1 hI => by
      obtain ⟨n1, o1, c1⟩ := hI
      have hi' : i < l.length := hdl ▸ hi
      have his : i < s.len := hsl ▸ hi'
      obtain ⟨x, ex, hx⟩ := hH i hi'
      obtain ⟨eδ, sδ⟩ := hδ i hi'
      have hdis : ∀ j < i, Disjoint (cells t h (δ j).s) (cells t h (δ i).s) := fun j hj =>
        hT.2 j (by omega) i hi (by omega) _ _ (hδ j (by omega)).1 eδ
      have Sd : Same (cells t h (δ i).s) h h1 := fun p hp =>
        o1 p (fun j hj e => by rw [e] at hp; exact hhead j (by omega) i hi' hp)
          (fun j hj hm => Set.disjoint_left.1 (hdis j hj) hm hp)
      have Ssrc : ∀ p ∈ cells (.node true t) h s, h1.arr p.1 p.2 = h.arr p.1 p.2 := fun p hp =>
        o1 p (fun j hj e => Set.disjoint_right.1 hd hp (span_cells _ _ _ (e ▸ mem_span (by omega))))
          (fun j hj hm => Set.disjoint_right.1 hd hp (cells_elem (by omega) (hδ j (by omega)).1 hm))
      have Sx : Same (cells t h x.s) h h1 := fun p hp => Ssrc p (cells_elem his ex hp)
      have ex1 : h1.arr s.arr (s.off + i) = .ref x := by rw [← ex]; exact Ssrc _ (span_cells _ _ _ (mem_span his))
      have eδ1 : h1.arr d.arr (d.off + i) = .ref (δ i) := by
        rw [← eδ]
        exact o1 _ (fun j hj e => by simp only [Prod.mk.injEq] at e; omega) (fun j hj => hhead i hi' j (by omega))
      obtain ⟨d', h2, e2, s2, H2, n2, o2, q2, T2⟩ := hf h1 (δ i) x _ (holds_same Sx hx) (shape_same Sd sδ)
        (tidy_same Sd (hT.1 i hi _ eδ).1)
        (by
          rw [cells_same Sd, cells_same Sx]
          exact Set.disjoint_of_subset (cells_elem hi eδ) (cells_elem his ex) hd)
      rw [cells_same Sd] at o2 q2
      have Wn : Same (cells t h2 (δ i).s) h2 (wr h2 d i (.ref d')) := fun p hp =>
        wr_ne h2 d i _ (by rintro rfl; rw [q2] at hp; exact hhead i hi' i hi' hp)
      have Wo : ∀ p : ℕ × ℕ, p ≠ (d.arr, d.off + i) → p ∉ cells t h (δ i).s →
          (wr h2 d i (.ref d')).arr p.1 p.2 = h1.arr p.1 p.2 := fun p hp hp' => by
        rw [wr_ne h2 d i _ hp, o2 p hp']
      refine ⟨wr h2 d i (.ref d'), ?_, n2.trans n1, fun p hp hp' => ?_, fun j hj => ?_⟩
      · exact (bind_run (getRef_run hi eδ1)).trans ((bind_run (getRef_run his ex1)).trans
          ((bind_run e2).trans (put_run hi _ _)))
      · rw [Wo p (hp i (by omega)) (hp' i (by omega))]
        exact o1 p (fun j hj => hp j (by omega)) (fun j hj => hp' j (by omega))
      · rcases Nat.lt_succ_iff_lt_or_eq.1 hj with hj | rfl
        · obtain ⟨r', w1, w2, w3, w4, w5⟩ := c1 j hj
          have Sj : Same (cells t h1 r'.s) h1 (wr h2 d i (.ref d')) := fun p hp => by
            rw [w4] at hp
            exact Wo p (by rintro rfl; exact hhead i hi' j (by omega) hp)
              (fun hm => Set.disjoint_left.1 (hdis j hj) hp hm)
          refine ⟨r', ?_, w2, fun hjl => holds_same Sj (w3 hjl), by rw [cells_same Sj, w4], tidy_same Sj w5⟩
          rw [← w1]
          exact Wo (d.arr, d.off + j) (by intro e; simp only [Prod.mk.injEq] at e; omega)
            (hhead j (by omega) i hi')
        · rw [← s2] at Wn q2 T2
          exact ⟨d', wr_self _ _ _ _, s2, fun _ => holds_same Wn H2, by rw [cells_same Wn, q2, s2], tidy_same Wn T2⟩)
    ⟨rfl, fun _ _ _ => rfl, fun j hj => by omega⟩
  have hcell : ∀ j < d.len, ∀ r', h'.arr d.arr (d.off + j) = .ref r' →
      cells t h' r'.s = cells t h (δ j).s ∧ Tidy t h' r'.s := by
    intro j hj r' e'
    obtain ⟨r'', w1, w2, w3, w4, w5⟩ := i3 j hj
    rw [w1] at e'
    injection e' with e'
    subst e'
    exact ⟨w4, w5⟩
  refine ⟨h', e, i1, fun p hp => ?_, fun i hi => ?_, ?_, ?_, ?_⟩
  · exact i2 p (fun j hj e => hp (span_cells _ _ _ (e ▸ mem_span hj)))
      (fun j hj hm => hp (cells_elem hj (hδ j (by omega)).1 hm))
  · obtain ⟨r', w1, w2, w3, -⟩ := i3 i (hdl ▸ hi)
    exact ⟨r', w1, w3 hi⟩
  · simp only [cells]
    congr 1
    ext p
    constructor
    · rintro ⟨i, hi, r', e', hp⟩
      rw [(hcell i hi r' e').1] at hp
      exact ⟨i, hi, δ i, (hδ i (hdl ▸ hi)).1, hp⟩
    · rintro ⟨i, hi, r', e', hp⟩
      obtain ⟨r'', w1, -⟩ := i3 i hi
      refine ⟨i, hi, r'', w1, ?_⟩
      rw [(hcell i hi r'' w1).1]
      rw [(hδ i (hdl ▸ hi)).1] at e'
      injection e' with e'
      rwa [e']
  · intro i hi r' e'
    rw [(hcell i hi r' e').1]
    exact ⟨(hcell i hi r' e').2, (hT.1 i hi _ (hδ i (hdl ▸ hi)).1).2⟩
  · intro i hi j hj ij r' r'' e' e''
    rw [(hcell i hi r' e').1, (hcell j hj r'' e'').1]
    exact hT.2 i hi j hj ij _ _ (hδ i (hdl ▸ hi)).1 (hδ j (hdl ▸ hj)).1

theorem copyFromOK_gad {t : Ty} {f : Ref G → Ref G → M V G (Ref G)} (hf : CopyFromOK t f) :
    CopyFromOK (.node true t) (copyFromGad f) := by
  intro h d r T hT hS hTi hd
  cases T with
  | words => exact hT.elim
  | node g l =>
    obtain ⟨h', e, a1, a2, a3, a4, a5⟩ := copyFromElems_run hf h d.s r.s l hS.1 hT.2.1 hT.2.2 hS.2 hTi hd
    exact ⟨⟨r.g, d.s⟩, h', (bind_run e).trans rfl, rfl, ⟨hT.1, hS.1, a3⟩, a1, a2, a4, a5⟩

theorem copyFromOK_arr {t : Ty} {f : Ref G → Ref G → M V G (Ref G)} (hf : CopyFromOK t f) :
    CopyFromOK (.node false t) (copyFromArr f) := by
  intro h d r T hT hS hTi hd
  cases T with
  | words => exact hT.elim
  | node g l =>
    obtain ⟨h', e, a1, a2, a3, a4, a5⟩ := copyFromElems_run hf h d.s r.s l hS.1 hT.2.1 hT.2.2 hS.2 hTi hd
    exact ⟨d, h', (bind_run e).trans rfl, rfl, ⟨hT.1, hS.1, a3⟩, a1, a2, a4, a5⟩

theorem copyFromOK_kind (k : Kind) (hk : k ≠ .uni ∧ k ≠ .fftUni) :
    CopyFromOK (V := V) (G := G) k.ty k.copyFrom := by
  cases k
  case poly | fftPoly | lweSK | lwe | mkLWE => exact copyFromOK_leaf
  case glweSK | glwe | fftGLWESK | fftGLWE | mkGLWE | mkFFTGLWE | lut => exact copyFromOK_arr copyFromOK_leaf
  case glwePK | lwePK => exact copyFromOK_arr (copyFromOK_arr copyFromOK_leaf)
  case lev => exact copyFromOK_gad copyFromOK_leaf
  case gsw | lweKSK => exact copyFromOK_gad (copyFromOK_gad copyFromOK_leaf)
  case glev | fftGLev => exact copyFromOK_gad (copyFromOK_arr copyFromOK_leaf)
  case ggsw | fftGGSW | glweKSK => exact copyFromOK_gad (copyFromOK_gad (copyFromOK_arr copyFromOK_leaf))
  case brk => exact copyFromOK_gad (copyFromOK_gad (copyFromOK_gad (copyFromOK_arr copyFromOK_leaf)))
  case uni => exact absurd rfl hk.1
  case fftUni => exact absurd rfl hk.2

/-! ### `Clear` -/

/-- The method sets the numbers to zero and leaves everything else alone. -/
def ClearOK [Zero V] (t : Ty) (f : Ref G → M V G Unit) : Prop :=
  ∀ (h : Heap V G) (r : Ref G) (T : Tree V G), Holds t h r T → Tidy t h r.s →
    ∃ h', f r h = some ((), h') ∧ Holds t h' r (zeros t T) ∧ h'.next = h.next ∧
      (∀ p ∉ cells t h r.s, h'.arr p.1 p.2 = h.arr p.1 p.2) ∧ cells t h' r.s = cells t h r.s

theorem fillZero_run [Zero V] (h : Heap V G) (s : Slice) :
    ∃ h', fillZero s h = some ((), h') ∧ h'.next = h.next ∧ (∀ p ∉ span s, h'.arr p.1 p.2 = h.arr p.1 p.2) ∧
      ∀ j < s.len, h'.arr s.arr (s.off + j) = .val 0 := by
  obtain ⟨h', e, i1, i2, i3⟩ := forN_inv (n := s.len) (V := V) (G := G) (f := fun i => put s i (.val 0))
    (Inv := fun i h1 => h1.next = h.next ∧ (∀ p ∉ span s, h1.arr p.1 p.2 = h.arr p.1 p.2) ∧
      ∀ j < i, h1.arr s.arr (s.off + j) = .val 0)
    (h := h)
    (fun i hi h1 hI => by
      obtain ⟨n1, o1, c1⟩ := hI
      refine ⟨_, put_run hi _ _, n1, fun p hp => ?_, fun j hj => ?_⟩
      · rw [← o1 p hp]
        exact wr_ne h1 s i _ (by rintro rfl; exact hp (mem_span hi))
      · rcases Nat.lt_succ_iff_lt_or_eq.1 hj with hj | rfl
        · rw [← c1 j hj]
          exact wr_ne h1 s i _ (p := (s.arr, s.off + j)) (by intro e; simp only [Prod.mk.injEq] at e; omega)
        · exact wr_self _ _ _ _)
    ⟨rfl, fun _ _ => rfl, fun j hj => by omega⟩
  exact ⟨h', e, i1, i2, i3⟩

theorem clearOK_leaf [Zero V] : ClearOK (V := V) (G := G) .leaf clearLeaf := by
  intro h r T hT _
  cases T with
  | node => exact hT.elim
  | words l =>
    obtain ⟨h', e, n, o, c⟩ := fillZero_run h r.s
    refine ⟨h', e, ⟨by rw [hT.1, List.length_replicate], fun i hi => ?_⟩, n, o, rfl⟩
    rw [List.length_replicate] at hi
    rw [c i (hT.1 ▸ hi), List.getElem_replicate]

theorem clearOK_node [Zero V] {b : Bool} {t : Ty} {f : Ref G → M V G Unit} (hf : ClearOK t f) :
    ClearOK (.node b t) (clearArr f) := by
  intro h r T hT hTi
  cases T with
  | words => exact hT.elim
  | node g l =>
    obtain ⟨hg, hl, hH⟩ := hT
    have hH' : ∀ i, ∃ r', ∀ hi : i < l.length, h.arr r.s.arr (r.s.off + i) = .ref r' ∧ Holds t h r' l[i] := by
      intro i
      by_cases hi : i < l.length
      · obtain ⟨r', hr⟩ := hH i hi
        exact ⟨r', fun _ => hr⟩
      · exact ⟨⟨none, ⟨0, 0, 0⟩⟩, fun h => absurd h hi⟩
    choose δ hδ using hH'
    have hhead : ∀ i < l.length, ∀ j < l.length, (r.s.arr, r.s.off + i) ∉ cells t h (δ j).s := fun i hi j hj hm =>
      Set.disjoint_left.1 (hTi.1 j (hl ▸ hj) _ (hδ j hj).1).2 (mem_span (hl ▸ hi)) hm
    obtain ⟨h', e, i1, i2, i3⟩ := forN_inv (n := r.s.len) (V := V) (G := G)
      (f := fun i => do f (← getRef r.s i))
      (Inv := fun i h1 => h1.next = h.next ∧
        (∀ p : ℕ × ℕ, (∀ j < i, p ∉ cells t h (δ j).s) → h1.arr p.1 p.2 = h.arr p.1 p.2) ∧
        ∀ j < i, (∀ hj : j < l.length, Holds t h1 (δ j) (zeros t l[j])) ∧ cells t h1 (δ j).s = cells t h (δ j).s)
      (h := h)
      (fun i hi h1 hI => by
        obtain ⟨n1, o1, c1⟩ := hI
        have hi' : i < l.length := hl ▸ hi
        obtain ⟨eδ, H⟩ := hδ i hi'
        have hdis : ∀ j < i, Disjoint (cells t h (δ j).s) (cells t h (δ i).s) := fun j hj =>
          hTi.2 j (by omega) i hi (by omega) _ _ (hδ j (by omega)).1 eδ
        have Sd : Same (cells t h (δ i).s) h h1 := fun p hp =>
          o1 p (fun j hj hm => Set.disjoint_left.1 (hdis j hj) hm hp)
        have eδ1 : h1.arr r.s.arr (r.s.off + i) = .ref (δ i) := by
          rw [← eδ]
          exact o1 _ (fun j hj => hhead i hi' j (by omega))
        obtain ⟨h2, e2, H2, n2, o2, q2⟩ := hf h1 (δ i) _ (holds_same Sd H) (tidy_same Sd (hTi.1 i hi _ eδ).1)
        rw [cells_same Sd] at o2 q2
        refine ⟨h2, (bind_run (getRef_run hi eδ1)).trans e2, n2.trans n1, fun p hp => ?_, fun j hj => ?_⟩
        · rw [o2 p (hp i (by omega))]
          exact o1 p fun j hj => hp j (by omega)
        · rcases Nat.lt_succ_iff_lt_or_eq.1 hj with hj | rfl
          · have Sj : Same (cells t h1 (δ j).s) h1 h2 := fun p hp => by
              rw [(c1 j hj).2] at hp
              exact o2 p fun hm => Set.disjoint_left.1 (hdis j hj) hp hm
            exact ⟨fun hjl => holds_same Sj ((c1 j hj).1 hjl), by rw [cells_same Sj, (c1 j hj).2]⟩
          · exact ⟨fun _ => H2, q2⟩)
      ⟨rfl, fun _ _ => rfl, fun j hj => by omega⟩
    have hcell : ∀ j < l.length, h'.arr r.s.arr (r.s.off + j) = .ref (δ j) := fun j hj => by
      rw [← (hδ j hj).1]
      exact i2 _ fun k hk => hhead j hj k (by omega)
    refine ⟨h', e, ⟨hg, by rw [hl, List.length_map], fun i hi => ?_⟩, i1, fun p hp => ?_, ?_⟩
    · rw [List.length_map] at hi
      rw [List.getElem_map]
      exact ⟨δ i, hcell i hi, (i3 i (hl ▸ hi)).1 hi⟩
    · exact i2 p fun j hj hm => hp (cells_elem hj (hδ j (hl ▸ hj)).1 hm)
    · simp only [cells]
      congr 1
      ext p
      constructor
      · rintro ⟨i, hi, r', e', hp⟩
        rw [hcell i (hl ▸ hi)] at e'
        injection e' with e'
        subst e'
        rw [(i3 i hi).2] at hp
        exact ⟨i, hi, δ i, (hδ i (hl ▸ hi)).1, hp⟩
      · rintro ⟨i, hi, r', e', hp⟩
        rw [(hδ i (hl ▸ hi)).1] at e'
        injection e' with e'
        subst e'
        exact ⟨i, hi, δ i, hcell i (hl ▸ hi), by rwa [(i3 i hi).2]⟩

theorem clearOK_kind [Zero V] (k : Kind) : ClearOK (V := V) (G := G) k.ty k.clear := by
  cases k
  case poly | fftPoly | lweSK | lwe | mkLWE => exact clearOK_leaf
  case glweSK | glwe | fftGLWESK | fftGLWE | mkGLWE | mkFFTGLWE | lut | lev => exact clearOK_node clearOK_leaf
  case glwePK | lwePK | gsw | lweKSK | glev | fftGLev => exact clearOK_node (clearOK_node clearOK_leaf)
  case ggsw | fftGGSW | glweKSK | uni | fftUni => exact clearOK_node (clearOK_node (clearOK_node clearOK_leaf))
  case brk => exact clearOK_node (clearOK_node (clearOK_node (clearOK_node clearOK_leaf)))

end Tfhe.Copies

namespace Tfhe
open Copies

variable {V G : Type} [Zero V]

/-! ### The properties -/

/-- `Copy` of every type: the copy holds what the original holds; no number that existed before has changed;
whatever is later written to the cells of the original does not change the copy, and whatever is later written to
the cells of the copy, or to any memory that did not exist before, does not change the original. -/
theorem C54_copy (k : Kind) (h : Heap V G) (r : Ref G) (T : Tree V G) (hT : Holds k.ty h r T)
    (hs : ∀ p ∈ cells k.ty h r.s, p.1 < h.next) :
    ∃ r' h', k.copy r h = some (r', h') ∧ Holds k.ty h' r' T ∧ Holds k.ty h' r T ∧
      (∀ a < h.next, h'.arr a = h.arr a) ∧ (∀ p ∈ cells k.ty h' r'.s, h.next ≤ p.1 ∧ p.1 < h'.next) ∧
      Tidy k.ty h' r'.s ∧
      (∀ h'', (∀ p ∉ cells k.ty h r.s, h''.arr p.1 p.2 = h'.arr p.1 p.2) → Holds k.ty h'' r' T) ∧
      (∀ h'', (∀ p : ℕ × ℕ, p.1 < h.next → h''.arr p.1 p.2 = h'.arr p.1 p.2) → Holds k.ty h'' r T) := by
  obtain ⟨r', h', e, H, n, o, b, t⟩ := copyOK_kind (V := V) (G := G) k h r T hT hs
  have So : Same (cells k.ty h r.s) h h' := fun p hp => by rw [o _ (hs p hp)]
  refine ⟨r', h', e, H, holds_same So hT, o, b, t, fun h'' H'' => holds_same ?_ H, fun h'' H'' =>
    holds_same ?_ hT⟩
  · intro p hp
    refine H'' p fun hq => ?_
    have := hs p hq
    have := b p hp
    omega
  · intro p hp
    rw [H'' p (hs p hp), So p hp]

omit [Zero V] in
/-- `CopyFrom`, for every type but the uni-encryptions: if the receiver has the shape of the argument and shares
no cell with it, it then holds what the argument holds, in the cells it had; all other cells, in particular those
of the argument, are as before. -/
theorem C54_copyFrom_partial (k : Kind) (hk : k ≠ .uni ∧ k ≠ .fftUni) (h : Heap V G) (d r : Ref G)
    (T : Tree V G) (hT : Holds k.ty h r T) (hS : HasShape k.ty h d.s T) (hd : Tidy k.ty h d.s)
    (hdr : Disjoint (cells k.ty h d.s) (cells k.ty h r.s)) :
    ∃ d' h', k.copyFrom d r h = some (d', h') ∧ d'.s = d.s ∧ Holds k.ty h' d' T ∧ Holds k.ty h' r T ∧
      cells k.ty h' d'.s = cells k.ty h d.s ∧ (∀ p ∉ cells k.ty h d.s, h'.arr p.1 p.2 = h.arr p.1 p.2) := by
  obtain ⟨d', h', e, s, H, -, o, q, -⟩ := copyFromOK_kind (V := V) (G := G) k hk h d r T hT hS hd hdr
  exact ⟨d', h', e, s, H, holds_same (fun p hp => o p (Set.disjoint_right.1 hdr hp)) hT, by rw [s, q], o⟩

omit [Zero V] in
/-- `CopyFrom` of the uni-encryptions: the ciphertexts and their gadget parameters are copied, but the gadget
parameters of the uni-encryption itself stay those of the receiver. -/
theorem C54_uniCopyFrom_partial (k : Kind) (hk : k = .uni ∨ k = .fftUni) (h : Heap V G) (d r : Ref G)
    (g : Option G) (l : List (Tree V G)) (hT : Holds k.ty h r (.node g l)) (hS : HasShape k.ty h d.s (.node g l))
    (hd : Tidy k.ty h d.s) (hdr : Disjoint (cells k.ty h d.s) (cells k.ty h r.s)) :
    ∃ d' h', k.copyFrom d r h = some (d', h') ∧ d'.s = d.s ∧ Holds k.ty h' d' (.node d.g l) ∧
      Holds k.ty h' r (.node g l) ∧ (∀ p ∉ cells k.ty h d.s, h'.arr p.1 p.2 = h.arr p.1 p.2) := by
  have key : ∀ f : Ref G → Ref G → M V G (Ref G), CopyFromOK (.node true (.node false .leaf)) f →
      k.copyFrom = copyFromArr f → k.ty = .node true (.node true (.node false .leaf)) →
      ∃ d' h', k.copyFrom d r h = some (d', h') ∧ d'.s = d.s ∧ Holds k.ty h' d' (.node d.g l) ∧
      Holds k.ty h' r (.node g l) ∧ (∀ p ∉ cells k.ty h d.s, h'.arr p.1 p.2 = h.arr p.1 p.2) := by
    intro f hf e1 e2
    rw [e2] at hT hS hd hdr ⊢
    rw [e1]
    obtain ⟨h', e, -, a2, a3, -, -⟩ := copyFromElems_run hf h d.s r.s l hS.1 hT.2.1 hT.2.2 hS.2 hd hdr
    exact ⟨d, h', (bind_run e).trans rfl, rfl, ⟨rfl, hS.1, a3⟩,
      holds_same (fun p hp => a2 p (Set.disjoint_right.1 hdr hp)) hT, a2⟩
  rcases hk with rfl | rfl
  · exact key _ (copyFromOK_gad (copyFromOK_arr copyFromOK_leaf)) rfl rfl
  · exact key _ (copyFromOK_gad (copyFromOK_arr copyFromOK_leaf)) rfl rfl

/-- `Clear` of every type: the numbers are zero and the lengths and gadget parameters as before; no other cell
has changed. -/
theorem C54_clear (k : Kind) (h : Heap V G) (r : Ref G) (T : Tree V G) (hT : Holds k.ty h r T)
    (hr : Tidy k.ty h r.s) :
    ∃ h', k.clear r h = some ((), h') ∧ Holds k.ty h' r (zeros k.ty T) ∧
      (∀ p ∉ cells k.ty h r.s, h'.arr p.1 p.2 = h.arr p.1 p.2) := by
  obtain ⟨h', e, H, -, o, -⟩ := clearOK_kind (V := V) (G := G) k h r T hT hr
  exact ⟨h', e, H, o⟩

/-- What C54 asks of `CopyFrom`, for one type. -/
def C54_copyFrom_claim (k : Kind) : Prop :=
  ∀ (h : Heap ℕ ℕ) (d r : Ref ℕ) (T : Tree ℕ ℕ), Holds k.ty h r T → HasShape k.ty h d.s T → Tidy k.ty h d.s →
    Disjoint (cells k.ty h d.s) (cells k.ty h r.s) →
    ∃ d' h', k.copyFrom d r h = some (d', h') ∧ Holds k.ty h' d' T

/-- A memory with two structs of every type up to four levels deep, the numbers `7` and `0`: array `a` refers to
array `a + 1`. -/
def copiesHeap : Heap ℕ ℕ :=
  ⟨8, fun a _ => if a = 3 then .val 7 else if a = 7 then .val 0 else .ref ⟨some 2, ⟨a + 1, 0, 1⟩⟩⟩

/-- What the first struct holds. -/
def copiesTree : Tree ℕ ℕ := .node (some 2) [.node (some 2) [.node none [.words [7]]]]

theorem copies_holds : Holds (.node true (.node true (.node false .leaf))) copiesHeap ⟨some 2, ⟨0, 0, 1⟩⟩ copiesTree := by
  simp [Holds, copiesTree, copiesHeap]

theorem copies_shape : HasShape (.node true (.node true (.node false .leaf))) copiesHeap ⟨4, 0, 1⟩ copiesTree := by
  simp [HasShape, copiesTree, copiesHeap]

theorem copies_tidy : Tidy (.node true (.node true (.node false .leaf))) copiesHeap ⟨4, 0, 1⟩ := by
  simp [Tidy, copiesHeap, cells, span, Set.disjoint_left]

theorem copies_disjoint : Disjoint (cells (.node true (.node true (.node false .leaf))) copiesHeap ⟨4, 0, 1⟩)
    (cells (.node true (.node true (.node false .leaf))) copiesHeap ⟨0, 0, 1⟩) := by
  simp only [copiesHeap, cells, span, Set.disjoint_left]
  simp
  omega

/-- `CopyFrom` of the uni-encryptions does not copy the gadget parameters. -/
theorem C54_uniCopyFrom_false : ¬ C54_copyFrom_claim .uni ∧ ¬ C54_copyFrom_claim .fftUni := by
  have key : ∀ k : Kind, k = .uni ∨ k = .fftUni → ¬ C54_copyFrom_claim k := by
    intro k hk hc
    have e2 : k.ty = .node true (.node true (.node false .leaf)) := by rcases hk with rfl | rfl <;> rfl
    have a1 : Holds k.ty copiesHeap ⟨some 2, ⟨0, 0, 1⟩⟩ copiesTree := e2 ▸ copies_holds
    have a2 : HasShape k.ty copiesHeap ⟨4, 0, 1⟩ copiesTree := e2 ▸ copies_shape
    have a3 : Tidy k.ty copiesHeap ⟨4, 0, 1⟩ := e2 ▸ copies_tidy
    have a4 : Disjoint (cells k.ty copiesHeap ⟨4, 0, 1⟩) (cells k.ty copiesHeap ⟨0, 0, 1⟩) := e2 ▸ copies_disjoint
    obtain ⟨d', h', e, H⟩ := hc copiesHeap ⟨some 1, ⟨4, 0, 1⟩⟩ ⟨some 2, ⟨0, 0, 1⟩⟩ copiesTree a1 a2 a3 a4
    obtain ⟨d'', h'', e'', -, H'', -⟩ := C54_uniCopyFrom_partial k hk copiesHeap ⟨some 1, ⟨4, 0, 1⟩⟩
      ⟨some 2, ⟨0, 0, 1⟩⟩ _ _ a1 a2 a3 a4
    rw [e] at e''
    simp only [Option.some.injEq, Prod.mk.injEq] at e''
    obtain ⟨rfl, rfl⟩ := e''
    rw [e2] at H H''
    have b1 := H.1
    have b2 := H''.1
    rw [← b2] at b1
    simp at b1
  exact ⟨key _ (Or.inl rfl), key _ (Or.inr rfl)⟩

/-! ### Keys with several parts -/

/-- `Copy` of a `tfhe.EvaluationKey`: both parts hold what those of the original hold, in new cells only, and
share none. -/
theorem C54_evkCopy (h : Heap V G) (b s : Ref G) (B S : Tree V G) (hB : Holds Kind.brk.ty h b B)
    (hS : Holds Kind.lweKSK.ty h s S) (cb : ∀ p ∈ cells Kind.brk.ty h b.s, p.1 < h.next)
    (cs : ∀ p ∈ cells Kind.lweKSK.ty h s.s, p.1 < h.next) :
    ∃ b' s' h', evkCopy (b, s) h = some ((b', s'), h') ∧ Holds Kind.brk.ty h' b' B ∧
      Holds Kind.lweKSK.ty h' s' S ∧ (∀ a < h.next, h'.arr a = h.arr a) ∧
      (∀ p ∈ cells Kind.brk.ty h' b'.s ∪ cells Kind.lweKSK.ty h' s'.s, h.next ≤ p.1 ∧ p.1 < h'.next) ∧
      Disjoint (cells Kind.brk.ty h' b'.s) (cells Kind.lweKSK.ty h' s'.s) := by
  obtain ⟨b', h1, e1, H1, n1, o1, c1, -⟩ := copyOK_kind (V := V) (G := G) .brk h b B hB cb
  have S1 : Same (cells Kind.lweKSK.ty h s.s) h h1 := fun p hp => by rw [o1 _ (cs p hp)]
  obtain ⟨s', h2, e2, H2, n2, o2, c2, -⟩ := copyOK_kind (V := V) (G := G) .lweKSK h1 s S (holds_same S1 hS)
    (by rw [cells_same S1]; exact fun p hp => by have := cs p hp; omega)
  have S2 : Same (cells Kind.brk.ty h1 b'.s) h1 h2 := fun p hp => by rw [o2 _ (c1 p hp).2]
  refine ⟨b', s', h2, (bind_run e1).trans ((bind_run e2).trans rfl), holds_same S2 H1, H2,
    fun a ha => by rw [o2 a (by omega), o1 a ha], ?_, ?_⟩
  · rw [cells_same S2]
    rintro p (hp | hp)
    · have := c1 p hp
      omega
    · have := c2 p hp
      omega
  · rw [cells_same S2, Set.disjoint_left]
    intro p hp hp'
    have := c1 p hp
    have := c2 p hp'
    omega

/-- The same for a `tfhe.PublicKey`. -/
theorem C54_pkCopy (h : Heap V G) (b s : Ref G) (B S : Tree V G) (hB : Holds Kind.lwePK.ty h b B)
    (hS : Holds Kind.glwePK.ty h s S) (cb : ∀ p ∈ cells Kind.lwePK.ty h b.s, p.1 < h.next)
    (cs : ∀ p ∈ cells Kind.glwePK.ty h s.s, p.1 < h.next) :
    ∃ b' s' h', pkCopy (b, s) h = some ((b', s'), h') ∧ Holds Kind.lwePK.ty h' b' B ∧
      Holds Kind.glwePK.ty h' s' S ∧ (∀ a < h.next, h'.arr a = h.arr a) ∧
      (∀ p ∈ cells Kind.lwePK.ty h' b'.s ∪ cells Kind.glwePK.ty h' s'.s, h.next ≤ p.1 ∧ p.1 < h'.next) ∧
      Disjoint (cells Kind.lwePK.ty h' b'.s) (cells Kind.glwePK.ty h' s'.s) := by
  obtain ⟨b', h1, e1, H1, n1, o1, c1, -⟩ := copyOK_kind (V := V) (G := G) .lwePK h b B hB cb
  have S1 : Same (cells Kind.glwePK.ty h s.s) h h1 := fun p hp => by rw [o1 _ (cs p hp)]
  obtain ⟨s', h2, e2, H2, n2, o2, c2, -⟩ := copyOK_kind (V := V) (G := G) .glwePK h1 s S (holds_same S1 hS)
    (by rw [cells_same S1]; exact fun p hp => by have := cs p hp; omega)
  have S2 : Same (cells Kind.lwePK.ty h1 b'.s) h1 h2 := fun p hp => by rw [o2 _ (c1 p hp).2]
  refine ⟨b', s', h2, (bind_run e1).trans ((bind_run e2).trans rfl), holds_same S2 H1, H2,
    fun a ha => by rw [o2 a (by omega), o1 a ha], ?_, ?_⟩
  · rw [cells_same S2]
    rintro p (hp | hp)
    · have := c1 p hp
      omega
    · have := c2 p hp
      omega
  · rw [cells_same S2, Set.disjoint_left]
    intro p hp hp'
    have := c1 p hp
    have := c2 p hp'
    omega

/-- `Copy` of a `mktfhe.EvaluationKey`: all four parts. -/
theorem C54_mkEvkCopy (h : Heap V G) (b s c u : Ref G) (B S C U : Tree V G) (hB : Holds Kind.brk.ty h b B)
    (hS : Holds Kind.lweKSK.ty h s S) (hC : Holds Kind.fftGLev.ty h c C) (hU : Holds Kind.fftUni.ty h u U)
    (cb : ∀ p ∈ cells Kind.brk.ty h b.s, p.1 < h.next) (cs : ∀ p ∈ cells Kind.lweKSK.ty h s.s, p.1 < h.next)
    (cc : ∀ p ∈ cells Kind.fftGLev.ty h c.s, p.1 < h.next) (cu : ∀ p ∈ cells Kind.fftUni.ty h u.s, p.1 < h.next) :
    ∃ b' s' c' u' h', mkEvkCopy ((b, s), c, u) h = some (((b', s'), c', u'), h') ∧ Holds Kind.brk.ty h' b' B ∧
      Holds Kind.lweKSK.ty h' s' S ∧ Holds Kind.fftGLev.ty h' c' C ∧ Holds Kind.fftUni.ty h' u' U ∧
      (∀ a < h.next, h'.arr a = h.arr a) ∧
      (∀ p ∈ cells Kind.brk.ty h' b'.s ∪ cells Kind.lweKSK.ty h' s'.s ∪ cells Kind.fftGLev.ty h' c'.s ∪
        cells Kind.fftUni.ty h' u'.s, h.next ≤ p.1) := by
  obtain ⟨b', s', h1, e1, HB, HS, o1, c1, -⟩ := C54_evkCopy h b s B S hB hS cb cs
  have n1 : h.next ≤ h1.next := by
    obtain ⟨b'', h3, e3, -, n3, o3, -⟩ := copyOK_kind (V := V) (G := G) .brk h b B hB cb
    have S1 : Same (cells Kind.lweKSK.ty h s.s) h h3 := fun p hp => by rw [o3 _ (cs p hp)]
    obtain ⟨s'', h4, e4, -, n4, -⟩ := copyOK_kind (V := V) (G := G) .lweKSK h3 s S (holds_same S1 hS)
      (by rw [cells_same S1]; exact fun p hp => by have := cs p hp; omega)
    have := e1.symm.trans ((bind_run e3).trans ((bind_run e4).trans rfl))
    simp only [pure_run, Option.some.injEq, Prod.mk.injEq] at this
    rw [this.2]
    omega
  have SC : Same (cells Kind.fftGLev.ty h c.s) h h1 := fun p hp => by rw [o1 _ (cc p hp)]
  obtain ⟨c', h2, e2, HC, n2, o2, c2, -⟩ := copyOK_kind (V := V) (G := G) .fftGLev h1 c C (holds_same SC hC)
    (by rw [cells_same SC]; exact fun p hp => by have := cc p hp; omega)
  have SU : Same (cells Kind.fftUni.ty h u.s) h h2 := fun p hp => by
    have := cu p hp
    rw [o2 _ (by omega), o1 _ this]
  obtain ⟨u', h3, e3, HU, n3, o3, c3, -⟩ := copyOK_kind (V := V) (G := G) .fftUni h2 u U (holds_same SU hU)
    (by rw [cells_same SU]; exact fun p hp => by have := cu p hp; omega)
  have S2 : ∀ p : ℕ × ℕ, p.1 < h1.next → h3.arr p.1 p.2 = h1.arr p.1 p.2 := fun p hp => by
    rw [o3 _ (by omega), o2 _ hp]
  have Sb : Same (cells Kind.brk.ty h1 b'.s) h1 h3 := fun p hp => S2 p (c1 p (Or.inl hp)).2
  have Ss : Same (cells Kind.lweKSK.ty h1 s'.s) h1 h3 := fun p hp => S2 p (c1 p (Or.inr hp)).2
  have Sc : Same (cells Kind.fftGLev.ty h2 c'.s) h2 h3 := fun p hp => by rw [o3 _ (c2 p hp).2]
  refine ⟨b', s', c', u', h3, (bind_run e1).trans ((bind_run e2).trans ((bind_run e3).trans rfl)),
    holds_same Sb HB, holds_same Ss HS, holds_same Sc HC, HU,
    fun a ha => by rw [o3 a (by omega), o2 a (by omega), o1 a ha], ?_⟩
  rw [cells_same Sb, cells_same Ss, cells_same Sc]
  rintro p (((hp | hp) | hp) | hp)
  · exact (c1 p (Or.inl hp)).1
  · exact (c1 p (Or.inr hp)).1
  · have := c2 p hp
    omega
  · have := c3 p hp
    omega

omit [Zero V] in
/-- `CopyFrom` of a `tfhe.EvaluationKey`. -/
theorem C54_evkCopyFrom (h : Heap V G) (b s b₀ s₀ : Ref G) (B S : Tree V G) (hB : Holds Kind.brk.ty h b₀ B)
    (hS : Holds Kind.lweKSK.ty h s₀ S) (sb : HasShape Kind.brk.ty h b.s B) (ss : HasShape Kind.lweKSK.ty h s.s S)
    (tb : Tidy Kind.brk.ty h b.s) (ts : Tidy Kind.lweKSK.ty h s.s)
    (d1 : Disjoint (cells Kind.brk.ty h b.s) (cells Kind.lweKSK.ty h s.s))
    (d2 : Disjoint (cells Kind.brk.ty h b.s ∪ cells Kind.lweKSK.ty h s.s)
      (cells Kind.brk.ty h b₀.s ∪ cells Kind.lweKSK.ty h s₀.s)) :
    ∃ b' s' h', evkCopyFrom (b, s) (b₀, s₀) h = some ((b', s'), h') ∧ Holds Kind.brk.ty h' b' B ∧
      Holds Kind.lweKSK.ty h' s' S ∧ Holds Kind.brk.ty h' b₀ B ∧ Holds Kind.lweKSK.ty h' s₀ S := by
  rw [Set.disjoint_union_left, Set.disjoint_union_right, Set.disjoint_union_right] at d2
  obtain ⟨⟨d3, d4⟩, d5, d6⟩ := d2
  obtain ⟨b', h1, e1, s1, H1, -, o1, q1, -⟩ := copyFromOK_kind (V := V) (G := G) .brk (by decide) h b b₀ B hB sb tb d3
  have Sd : Same (cells Kind.lweKSK.ty h s.s) h h1 := fun p hp => o1 p (Set.disjoint_right.1 d1 hp)
  have S4 : Same (cells Kind.lweKSK.ty h s₀.s) h h1 := fun p hp => o1 p (Set.disjoint_right.1 d4 hp)
  have S3 : Same (cells Kind.brk.ty h b₀.s) h h1 := fun p hp => o1 p (Set.disjoint_right.1 d3 hp)
  obtain ⟨s', h2, e2, s2, H2, -, o2, -⟩ := copyFromOK_kind (V := V) (G := G) .lweKSK (by decide) h1 s s₀ S
    (holds_same S4 hS) (shape_same Sd ss) (tidy_same Sd ts) (by rw [cells_same Sd, cells_same S4]; exact d6)
  rw [cells_same Sd] at o2
  refine ⟨b', s', h2, (bind_run e1).trans ((bind_run e2).trans rfl), holds_same ?_ H1, H2,
    holds_same ?_ (holds_same S3 hB), holds_same ?_ (holds_same S4 hS)⟩
  · rw [s1, q1]
    exact fun p hp => o2 p (Set.disjoint_left.1 d1 hp)
  · rw [cells_same S3]
    exact fun p hp => o2 p (Set.disjoint_right.1 d5 hp)
  · rw [cells_same S4]
    exact fun p hp => o2 p (Set.disjoint_right.1 d6 hp)

omit [Zero V] in
/-- `CopyFrom` of a `tfhe.PublicKey`. -/
theorem C54_pkCopyFrom (h : Heap V G) (b s b₀ s₀ : Ref G) (B S : Tree V G) (hB : Holds Kind.lwePK.ty h b₀ B)
    (hS : Holds Kind.glwePK.ty h s₀ S) (sb : HasShape Kind.lwePK.ty h b.s B) (ss : HasShape Kind.glwePK.ty h s.s S)
    (tb : Tidy Kind.lwePK.ty h b.s) (ts : Tidy Kind.glwePK.ty h s.s)
    (d1 : Disjoint (cells Kind.lwePK.ty h b.s) (cells Kind.glwePK.ty h s.s))
    (d2 : Disjoint (cells Kind.lwePK.ty h b.s ∪ cells Kind.glwePK.ty h s.s)
      (cells Kind.lwePK.ty h b₀.s ∪ cells Kind.glwePK.ty h s₀.s)) :
    ∃ b' s' h', pkCopyFrom (b, s) (b₀, s₀) h = some ((b', s'), h') ∧ Holds Kind.lwePK.ty h' b' B ∧
      Holds Kind.glwePK.ty h' s' S ∧ Holds Kind.lwePK.ty h' b₀ B ∧ Holds Kind.glwePK.ty h' s₀ S := by
  rw [Set.disjoint_union_left, Set.disjoint_union_right, Set.disjoint_union_right] at d2
  obtain ⟨⟨d3, d4⟩, d5, d6⟩ := d2
  obtain ⟨b', h1, e1, s1, H1, -, o1, q1, -⟩ := copyFromOK_kind (V := V) (G := G) .lwePK (by decide) h b b₀ B hB sb tb d3
  have Sd : Same (cells Kind.glwePK.ty h s.s) h h1 := fun p hp => o1 p (Set.disjoint_right.1 d1 hp)
  have S4 : Same (cells Kind.glwePK.ty h s₀.s) h h1 := fun p hp => o1 p (Set.disjoint_right.1 d4 hp)
  have S3 : Same (cells Kind.lwePK.ty h b₀.s) h h1 := fun p hp => o1 p (Set.disjoint_right.1 d3 hp)
  obtain ⟨s', h2, e2, s2, H2, -, o2, -⟩ := copyFromOK_kind (V := V) (G := G) .glwePK (by decide) h1 s s₀ S
    (holds_same S4 hS) (shape_same Sd ss) (tidy_same Sd ts) (by rw [cells_same Sd, cells_same S4]; exact d6)
  rw [cells_same Sd] at o2
  refine ⟨b', s', h2, (bind_run e1).trans ((bind_run e2).trans rfl), holds_same ?_ H1, H2,
    holds_same ?_ (holds_same S3 hB), holds_same ?_ (holds_same S4 hS)⟩
  · rw [s1, q1]
    exact fun p hp => o2 p (Set.disjoint_left.1 d1 hp)
  · rw [cells_same S3]
    exact fun p hp => o2 p (Set.disjoint_right.1 d5 hp)
  · rw [cells_same S4]
    exact fun p hp => o2 p (Set.disjoint_right.1 d6 hp)

/-- `Clear` of a `tfhe.EvaluationKey`. -/
theorem C54_evkClear (h : Heap V G) (b s : Ref G) (B S : Tree V G) (hB : Holds Kind.brk.ty h b B)
    (hS : Holds Kind.lweKSK.ty h s S) (tb : Tidy Kind.brk.ty h b.s) (ts : Tidy Kind.lweKSK.ty h s.s)
    (d1 : Disjoint (cells Kind.brk.ty h b.s) (cells Kind.lweKSK.ty h s.s)) :
    ∃ h', evkClear (b, s) h = some ((), h') ∧ Holds Kind.brk.ty h' b (zeros Kind.brk.ty B) ∧
      Holds Kind.lweKSK.ty h' s (zeros Kind.lweKSK.ty S) := by
  obtain ⟨h1, e1, H1, -, o1, q1⟩ := clearOK_kind (V := V) (G := G) .brk h b B hB tb
  have Sd : Same (cells Kind.lweKSK.ty h s.s) h h1 := fun p hp => o1 p (Set.disjoint_right.1 d1 hp)
  obtain ⟨h2, e2, H2, -, o2, -⟩ := clearOK_kind (V := V) (G := G) .lweKSK h1 s S (holds_same Sd hS) (tidy_same Sd ts)
  rw [cells_same Sd] at o2
  refine ⟨h2, (bind_run e1).trans e2, holds_same ?_ H1, H2⟩
  rw [q1]
  exact fun p hp => o2 p (Set.disjoint_left.1 d1 hp)

/-- `Clear` of a `tfhe.PublicKey`. -/
theorem C54_pkClear (h : Heap V G) (b s : Ref G) (B S : Tree V G) (hB : Holds Kind.lwePK.ty h b B)
    (hS : Holds Kind.glwePK.ty h s S) (tb : Tidy Kind.lwePK.ty h b.s) (ts : Tidy Kind.glwePK.ty h s.s)
    (d1 : Disjoint (cells Kind.lwePK.ty h b.s) (cells Kind.glwePK.ty h s.s)) :
    ∃ h', pkClear (b, s) h = some ((), h') ∧ Holds Kind.lwePK.ty h' b (zeros Kind.lwePK.ty B) ∧
      Holds Kind.glwePK.ty h' s (zeros Kind.glwePK.ty S) := by
  obtain ⟨h1, e1, H1, -, o1, q1⟩ := clearOK_kind (V := V) (G := G) .lwePK h b B hB tb
  have Sd : Same (cells Kind.glwePK.ty h s.s) h h1 := fun p hp => o1 p (Set.disjoint_right.1 d1 hp)
  obtain ⟨h2, e2, H2, -, o2, -⟩ := clearOK_kind (V := V) (G := G) .glwePK h1 s S (holds_same Sd hS) (tidy_same Sd ts)
  rw [cells_same Sd] at o2
  refine ⟨h2, (bind_run e1).trans e2, holds_same ?_ H1, H2⟩
  rw [q1]
  exact fun p hp => o2 p (Set.disjoint_left.1 d1 hp)

/-! ### The hypotheses are met -/

/-- A gadget ciphertext of one row, one ciphertext, one polynomial and one coefficient. -/
example : ∃ r' h', Kind.ggsw.copy ⟨some 2, ⟨0, 0, 1⟩⟩ copiesHeap = some (r', h') ∧ Holds Kind.ggsw.ty h' r' copiesTree := by
  obtain ⟨r', h', e, H, -⟩ := C54_copy .ggsw copiesHeap ⟨some 2, ⟨0, 0, 1⟩⟩ copiesTree copies_holds
    (by
      simp [Kind.ty, cells, span, copiesHeap]
      omega)
  exact ⟨r', h', e, H⟩

/-- The second struct of the memory receives the contents of the first. -/
example : ∃ d' h', Kind.ggsw.copyFrom ⟨some 1, ⟨4, 0, 1⟩⟩ ⟨some 2, ⟨0, 0, 1⟩⟩ copiesHeap = some (d', h') ∧
    Holds Kind.ggsw.ty h' d' copiesTree := by
  obtain ⟨d', h', e, -, H, -⟩ := C54_copyFrom_partial .ggsw (by decide) copiesHeap ⟨some 1, ⟨4, 0, 1⟩⟩
    ⟨some 2, ⟨0, 0, 1⟩⟩ copiesTree copies_holds copies_shape copies_tidy copies_disjoint
  exact ⟨d', h', e, H⟩

/-- Two coefficients of a ciphertext at an offset in a larger array are cleared. -/
example : ∃ h', Kind.lwe.clear (V := ℕ) (G := ℕ) ⟨none, ⟨0, 3, 2⟩⟩ ⟨1, fun _ j => .val j⟩ = some ((), h') ∧
    h'.arr 0 2 = .val 2 ∧ h'.arr 0 3 = .val 0 ∧ h'.arr 0 4 = .val 0 ∧ h'.arr 0 5 = .val 5 := by
  obtain ⟨h', e, H, o⟩ := C54_clear .lwe (V := ℕ) (G := ℕ) ⟨1, fun _ j => .val j⟩ ⟨none, ⟨0, 3, 2⟩⟩ (.words [3, 4])
    ⟨rfl, fun i hi => by
      have : i = 0 ∨ i = 1 := by simp at hi; omega
      rcases this with rfl | rfl <;> rfl⟩ trivial
  refine ⟨h', e, (o (0, 2) ?_), H.2 0 (by simp), H.2 1 (by simp), (o (0, 5) ?_)⟩
  · rintro ⟨-, i, hi, h⟩
    simp at h hi
    omega
  · rintro ⟨-, i, hi, h⟩
    simp at h hi
    omega

end Tfhe
