import Verif.Lemma.Foot
import Mathlib.Logic.Hydra
import Mathlib.Data.Fintype.Basic
import Mathlib.Tactic.Abel

/-!
# Interleavings of programs that do not write what others touch
-/
namespace Tfhe.Scratch

variable {w : ℕ} {F : Type} {ι κ : Type}

/-- The memories have the same buffers, and the same values in the cells `R` of the caller. -/
structure Like (R : Set UCell) (m m' : Mem w F) : Prop where
  wd : ∀ l, inW R l → m.wd l = m'.wd l
  ft : ∀ l, inF R l → m.ft l = m'.ft l
  c : m.cLen = m'.cLen
  p : m.pLen = m'.pLen
  fp : m.fpLen = m'.fpLen

theorem Like.refl (R : Set UCell) (m : Mem w F) : Like R m m := ⟨fun _ _ => rfl, fun _ _ => rfl, rfl, rfl, rfl⟩

theorem Like.symm {R : Set UCell} {m m' : Mem w F} (h : Like R m m') : Like R m' m :=
  ⟨fun l hl => (h.wd l hl).symm, fun l hl => (h.ft l hl).symm, h.c.symm, h.p.symm, h.fp.symm⟩

theorem Like.trans {R : Set UCell} {m m' m'' : Mem w F} (h : Like R m m') (h' : Like R m' m'') : Like R m m'' :=
  ⟨fun l hl => (h.wd l hl).trans (h'.wd l hl), fun l hl => (h.ft l hl).trans (h'.ft l hl), h.c.trans h'.c,
    h.p.trans h'.p, h.fp.trans h'.fp⟩

theorem Like.setW {R : Set UCell} {m m' : Mem w F} (h : Like R m m') (l : WLoc) (x : BitVec w) :
    Like R (m.setW l x) (m'.setW l x) := by
  refine ⟨fun l' hl => ?_, h.ft, h.c, h.p, h.fp⟩
  show (if _ then _ else _) = if _ then _ else _
  split
  · rfl
  · exact h.wd l' hl

theorem Like.setF {R : Set UCell} {m m' : Mem w F} (h : Like R m m') (l : FLoc) (x : F) :
    Like R (m.setF l x) (m'.setF l x) := by
  refine ⟨h.wd, fun l' hl => ?_, h.c, h.p, h.fp⟩
  show (if _ then _ else _) = if _ then _ else _
  split
  · rfl
  · exact h.ft l' hl

theorem Like.growC {R : Set UCell} {m m' : Mem w F} (h : Like R m m') (n : ℕ) : Like R (m.growC n) (m'.growC n) := by
  refine ⟨fun l hl => ?_, h.ft, rfl, h.p, h.fp⟩
  cases l with
  | cDcmp i =>
    show (if m.cLen ≤ i ∧ i < n then 0 else m.wd _) = if m'.cLen ≤ i ∧ i < n then 0 else m'.wd _
    rw [h.c, h.wd _ hl]
  | _ => exact h.wd _ hl

theorem Like.growP {R : Set UCell} {m m' : Mem w F} (h : Like R m m') (n : ℕ) : Like R (m.growP n) (m'.growP n) := by
  refine ⟨fun l hl => ?_, h.ft, h.c, rfl, h.fp⟩
  cases l with
  | pDcmp j i =>
    show (if m.pLen ≤ j ∧ j < n then 0 else m.wd _) = if m'.pLen ≤ j ∧ j < n then 0 else m'.wd _
    rw [h.p, h.wd _ hl]
  | _ => exact h.wd _ hl

theorem Like.growF {R : Set UCell} {m m' : Mem w F} (h : Like R m m') (n : ℕ) (z : F) :
    Like R (m.growF n z) (m'.growF n z) := by
  refine ⟨h.wd, fun l hl => ?_, h.c, h.p, rfl⟩
  cases l with
  | fpDcmp j =>
    show (if m.fpLen ≤ j ∧ j < n then z else m.ft _) = if m'.fpLen ≤ j ∧ j < n then z else m'.ft _
    rw [h.fp, h.ft _ hl]
  | _ => exact h.ft _ hl

/-- Cells of the caller outside `W` have the same values. -/
structure Frame (W : Set UCell) (m m' : Mem w F) : Prop where
  wd : ∀ a, .w a ∉ W → m'.wd (.user a) = m.wd (.user a)
  ft : ∀ a, .f a ∉ W → m'.ft (.user a) = m.ft (.user a)

/-- One step: it respects the footprint, only writes in `W`, and does the same in memories that look alike. -/
theorem foot_step {A : Type} {R W : Set UCell} {p q : Prog w F A} {Q : A → Prop} {m m1 : Mem w F} (hp : Foot R W p Q)
    (h : p.step m = some (q, m1)) :
    Foot R W q Q ∧ Frame W m m1 ∧ p.run m = q.run m1 ∧
      ∀ m', Like R m m' → ∃ m1', p.step m' = some (q, m1') ∧ Like R m1 m1' := by
  cases p with
  | ret a => cases h
  | panic => cases h
  | rd l k =>
    cases h
    exact ⟨hp.2 _, ⟨fun _ _ => rfl, fun _ _ => rfl⟩, rfl, fun m' hm => ⟨m', by rw [Prog.step, hm.wd l hp.1], hm⟩⟩
  | wr l x k =>
    cases h
    refine ⟨hp.2, ⟨fun a ha => if_neg fun e => ha (hp.1 a e.symm), fun _ _ => rfl⟩, rfl, fun m' hm => ⟨_, rfl, hm.setW l x⟩⟩
  | rdF l k =>
    cases h
    exact ⟨hp.2 _, ⟨fun _ _ => rfl, fun _ _ => rfl⟩, rfl, fun m' hm => ⟨m', by rw [Prog.step, hm.ft l hp.1], hm⟩⟩
  | wrF l x k =>
    cases h
    refine ⟨hp.2, ⟨fun _ _ => rfl, fun a ha => if_neg fun e => ha (hp.1 a e.symm)⟩, rfl, fun m' hm => ⟨_, rfl, hm.setF l x⟩⟩
  | lens k =>
    cases h
    exact ⟨hp _ _ _, ⟨fun _ _ => rfl, fun _ _ => rfl⟩, rfl, fun m' hm => ⟨m', by rw [Prog.step, hm.c, hm.p, hm.fp], hm⟩⟩
  | growC n k =>
    cases h
    exact ⟨hp, ⟨fun _ _ => rfl, fun _ _ => rfl⟩, rfl, fun m' hm => ⟨_, rfl, hm.growC n⟩⟩
  | growP n k =>
    cases h
    exact ⟨hp, ⟨fun _ _ => rfl, fun _ _ => rfl⟩, rfl, fun m' hm => ⟨_, rfl, hm.growP n⟩⟩
  | growF n z k =>
    cases h
    exact ⟨hp, ⟨fun _ _ => rfl, fun _ _ => rfl⟩, rfl, fun m' hm => ⟨_, rfl, hm.growF n z⟩⟩

section
variable [DecidableEq κ]

/-- The evaluator that made the step sees the new memory. -/
theorem view_put (g : World κ w F) (e : κ) (m : Mem w F) : (g.put e m).view e = m := by
  have h : (g.put e m).priv e = m := by simp [World.put]
  cases m with
  | mk wd ft c p fp =>
    simp only [World.view, h]
    congr 1
    · funext l; cases l <;> rfl
    · funext l; cases l <;> rfl

/-- The other evaluators see a change only in the cells that were written. -/
theorem view_put_ne {R W : Set UCell} (g : World κ w F) {e e' : κ} {m : Mem w F} (he : e' ≠ e)
    (hm : Frame W (g.view e) m) (hd : Disjoint W R) : Like R (g.view e') ((g.put e m).view e') := by
  have h : (g.put e m).priv e' = g.priv e' := by simp [World.put, he]
  refine ⟨fun l hl => ?_, fun l hl => ?_, by simp only [World.view, h], by simp only [World.view, h],
    by simp only [World.view, h]⟩
  · cases l with
    | user a => exact (hm.wd a fun ha => Set.disjoint_left.mp hd ha (hl a rfl)).symm
    | _ => simp only [World.view, h]
  · cases l with
    | user a => exact (hm.ft a fun ha => Set.disjoint_left.mp hd ha (hl a rfl)).symm
    | _ => simp only [World.view, h]

variable [DecidableEq ι]

/-- What holds after any steps: every goroutine has footprint `R i`, `W i`, and continuing alone from a
memory that looks like its own gives the result of running alone from the start. -/
structure Inv (own : ι → κ) (R W : ι → Set UCell) (c0 c : Conf ι κ w F) : Prop where
  foot : ∀ i, Foot (R i) (W i) (c.todo i) Tr
  solo : ∀ i, ∃ m, Like (R i) m (c.mem.view (own i)) ∧
    (c0.todo i).run (c0.mem.view (own i)) = (c.todo i).run m
  wd : ∀ a, (∀ i, .w a ∉ W i) → c.mem.uw a = c0.mem.uw a
  ft : ∀ a, (∀ i, .f a ∉ W i) → c.mem.uf a = c0.mem.uf a

theorem inv_exec {own : ι → κ} (hown : Function.Injective own) {R W : ι → Set UCell}
    (hd : ∀ i j, i ≠ j → Disjoint (W i) (R j)) {c0 c : Conf ι κ w F} (h0 : ∀ i, Foot (R i) (W i) (c0.todo i) Tr)
    (h : Exec own c0 c) : Inv own R W c0 c := by
  induction h with
  | refl => exact ⟨h0, fun i => ⟨_, Like.refl _ _, rfl⟩, fun _ _ => rfl, fun _ _ => rfl⟩
  | @tail c _ _ hs ih =>
    obtain ⟨i, p, m, e⟩ := hs
    obtain ⟨hf, hfr, -, -⟩ := foot_step (ih.foot i) e
    refine ⟨fun j => ?_, fun j => ?_, fun a ha => ?_, fun a ha => ?_⟩
    · by_cases hj : j = i
      · subst hj; simpa using hf
      · simpa [hj] using ih.foot j
    · obtain ⟨mj, h1, h2⟩ := ih.solo j
      by_cases hj : j = i
      · subst hj
        obtain ⟨q, m', e', hl'⟩ : ∃ q m', (c.todo j).step mj = some (q, m') ∧ q = p ∧ Like (R j) m m' := by
          obtain ⟨-, -, -, hl⟩ := foot_step (ih.foot j) e
          obtain ⟨m1, a, b⟩ := hl mj h1.symm
          exact ⟨p, m1, a, rfl, b⟩
        obtain ⟨rfl, hl'⟩ := hl'
        refine ⟨m', ?_, ?_⟩
        · simp only [view_put]; exact hl'.symm
        · simp only [Function.update_self]
          rw [h2]
          exact (foot_step (ih.foot j) e').2.2.1
      · refine ⟨mj, h1.trans ?_, by simpa [hj] using h2⟩
        exact view_put_ne c.mem (fun e => hj (hown e)) hfr (hd i j (Ne.symm hj))
    · exact (hfr.wd a (ha i)).trans (ih.wd a ha)
    · exact (hfr.ft a (ha i)).trans (ih.ft a ha)

end

/-! ### Termination -/

/-- `q` is left after a step of `p`. -/
def After {A : Type} (q p : Prog w F A) : Prop := ∃ m m1, p.step m = some (q, m1)

theorem wf_after {A : Type} : WellFounded (After : Prog w F A → Prog w F A → Prop) := by
  refine ⟨fun p => ?_⟩
  induction p with
  | ret a => exact ⟨_, by rintro _ ⟨m, m1, ⟨⟩⟩⟩
  | panic => exact ⟨_, by rintro _ ⟨m, m1, ⟨⟩⟩⟩
  | rd l k ih => exact ⟨_, by rintro _ ⟨m, m1, ⟨⟩⟩; exact ih _⟩
  | wr l x k ih => exact ⟨_, by rintro _ ⟨m, m1, ⟨⟩⟩; exact ih⟩
  | rdF l k ih => exact ⟨_, by rintro _ ⟨m, m1, ⟨⟩⟩; exact ih _⟩
  | wrF l x k ih => exact ⟨_, by rintro _ ⟨m, m1, ⟨⟩⟩; exact ih⟩
  | lens k ih => exact ⟨_, by rintro _ ⟨m, m1, ⟨⟩⟩; exact ih _ _ _⟩
  | growC n k ih => exact ⟨_, by rintro _ ⟨m, m1, ⟨⟩⟩; exact ih⟩
  | growP n k ih => exact ⟨_, by rintro _ ⟨m, m1, ⟨⟩⟩; exact ih⟩
  | growF n z k ih => exact ⟨_, by rintro _ ⟨m, m1, ⟨⟩⟩; exact ih⟩

theorem wf_step [DecidableEq κ] [DecidableEq ι] [Fintype ι] (own : ι → κ) :
    WellFounded fun c' c : Conf ι κ w F => Step own c c' := by
  refine Subrelation.wf (r := InvImage (Relation.CutExpand After) fun c : Conf ι κ w F => Finset.univ.val.map c.todo) ?_
    (InvImage.wf _ wf_after.cutExpand)
  rintro _ c ⟨i, p, m, h⟩
  refine ⟨{p}, c.todo i, fun q hq => ?_, ?_⟩
  · rw [Multiset.mem_singleton.mp hq]; exact ⟨_, _, h⟩
  · have hi : (Finset.univ : Finset ι).val = i ::ₘ (Finset.univ.erase i).val := by
      rw [← Finset.insert_val_of_notMem (Finset.notMem_erase i _), Finset.insert_erase (Finset.mem_univ i)]
    show Multiset.map (Function.update c.todo i p) _ + _ = Multiset.map c.todo _ + _
    rw [hi, Multiset.map_cons, Multiset.map_cons, Function.update_self,
      Multiset.map_congr rfl (g := c.todo) fun j hj => Function.update_of_ne (Finset.ne_of_mem_erase hj) _ _]
    simp only [← Multiset.singleton_add]
    abel

end Tfhe.Scratch
