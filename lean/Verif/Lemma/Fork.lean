import Verif.Model.Fork
import Mathlib.Data.Finset.Card
import Mathlib.Algebra.BigOperators.Fin
import Mathlib.Algebra.BigOperators.Intervals
import Mathlib.Algebra.Order.BigOperators.Group.Finset

/-! # Invariant and measure of the fork-join machine -/
namespace Tfhe.Fork
open Finset
variable {A : Type} {V : A → Type}

/-- Everything that goroutine `i` may write. -/
def Program.Wr (p : Program V) (i : ℕ) : Set A := {a | ∃ I ∈ p.prog i, a ∈ I.writes}

/-- The footprints are right and the bodies of different goroutines do not conflict. -/
structure Program.Indep (p : Program V) : Prop where
  sound : ∀ i, ∀ I ∈ p.prog i, I.Sound
  disj : ∀ i j, i ≠ j → ∀ I ∈ p.prog i, ∀ J ∈ p.prog j, ¬ Conflict I J

/-- How many instructions of goroutine `i` were executed. -/
def State.count (p : Program V) (s : State V) (i : ℕ) : ℕ :=
  match s.thr i with
  | .idle => 0
  | .run pc => pc
  | .fin => (p.prog i).length

/-- How many goroutines the caller has started (as an index). -/
def Main.started (p : Program V) : Main → ℕ
  | .pre _ => 0
  | .spawn i => i
  | .go i => i
  | _ => p.P

/-- Before `wg.Wait()` has returned. -/
def Main.early : Main → Bool
  | .pre _ | .spawn _ | .go _ => true
  | _ => false

/-- What the caller has added to the counter for a goroutine not yet started. -/
def Main.pending : Main → ℕ
  | .go _ => 1
  | _ => 0

def Thr.running : Thr → Bool
  | .run _ => true
  | _ => false

/-- Memory while goroutines run: `m1` is the memory at the start of the first goroutine. -/
structure Joined (p : Program V) (s : State V) (m1 : Store V) : Prop where
  wr : ∀ i, ∀ a ∈ p.Wr i, s.mem a = runAll ((p.prog i).take (s.count p i)) m1 a
  other : ∀ a, (∀ i, a ∉ p.Wr i) → s.mem a = m1 a

structure FInv (p : Program V) (m0 : Store V) (s : State V) : Prop where
  pre_ok : ∀ pc, s.main = .pre pc → pc ≤ p.pre.length ∧ s.mem = runAll (p.pre.take pc) m0 ∧ ∀ i, s.thr i = .idle
  le : s.main.started p ≤ p.P
  go_on : ∀ i, s.main = .go i → p.on i = true ∧ i < p.P
  idle_of : ∀ i, s.main.started p ≤ i → s.thr i = .idle
  off : ∀ i, p.on i = false → s.thr i = .idle
  on_ok : ∀ i, i < s.main.started p → p.on i = true → s.thr i ≠ .idle
  pc_le : ∀ i, s.count p i ≤ (p.prog i).length
  wg_ok : s.wg = ((range p.P).filter fun i => (s.thr i).running).card + s.main.pending
  mem_ok : s.main.early = true → (∀ pc, s.main ≠ .pre pc) → Joined p s (runAll p.pre m0)
  fin_ok : s.main.early = false → ∀ i, p.on i = true → i < p.P → s.thr i = .fin
  post_ok : ∀ k, s.main = .post k → k ≤ p.P ∧
    ∃ s0, Joined p s0 (runAll p.pre m0) ∧ s0.thr = s.thr ∧ postLoop p k s0.mem = some s.mem
  ret_ok : s.main = .returned →
    ∃ s0, Joined p s0 (runAll p.pre m0) ∧ s0.thr = s.thr ∧ postLoop p p.P s0.mem = some s.mem
  panic_ok : s.main = .panicked →
    ∃ s0, Joined p s0 (runAll p.pre m0) ∧ s0.thr = s.thr ∧ postLoop p p.P s0.mem = none

theorem runAll_append (l l' : List (Instr V)) (m : Store V) : runAll (l ++ l') m = runAll l' (runAll l m) := by
  simp [runAll]

theorem runAll_take_succ (l : List (Instr V)) (pc : ℕ) (I : Instr V) (h : l[pc]? = some I) (m : Store V) :
    runAll (l.take (pc + 1)) m = I.run (runAll (l.take pc) m) := by
  rw [List.take_add_one, h, runAll_append]; rfl

theorem runAll_frame (l : List (Instr V)) (hl : ∀ I ∈ l, I.Sound) (m : Store V) (a : A) (ha : ∀ I ∈ l, a ∉ I.writes) :
    runAll l m a = m a := by
  induction l generalizing m with
  | nil => rfl
  | cons I l ih =>
    show runAll l (I.run m) a = _
    rw [ih (fun J hJ => hl J (by simp [hJ])) _ (fun J hJ => ha J (by simp [hJ])),
      (hl I (by simp)).frame _ _ (ha I (by simp))]

theorem mem_of_getElem? {α : Type} {l : List α} {n : ℕ} {x : α} (h : l[n]? = some x) : x ∈ l ∧ n < l.length := by
  obtain ⟨h1, h2⟩ := List.getElem?_eq_some_iff.1 h
  exact ⟨h2 ▸ List.getElem_mem h1, h1⟩

theorem finv_start (p : Program V) (m0 : Store V) : FInv p m0 (start m0) where
  pre_ok := by
    intro pc h
    obtain rfl : 0 = pc := by simpa [start] using h
    exact ⟨Nat.zero_le _, rfl, fun _ => rfl⟩
  le := Nat.zero_le _
  go_on := by simp [start]
  idle_of := fun _ _ => rfl
  off := fun _ _ => rfl
  on_ok := by simp [start, Main.started]
  pc_le := fun _ => Nat.zero_le _
  wg_ok := by simp [start, Thr.running, Main.pending]
  mem_ok := fun _ h => absurd rfl (h 0)
  fin_ok := by simp [start, Main.early]
  post_ok := by simp [start]
  ret_ok := by simp [start]
  panic_ok := by simp [start]

/-- One instruction of goroutine `i` keeps the description of the memory. -/
theorem joined_exec {p : Program V} (hp : p.Indep) {s : State V} {m1 : Store V} (h : Joined p s m1) {i pc : ℕ}
    {I : Instr V} (h1 : s.thr i = .run pc) (h2 : (p.prog i)[pc]? = some I) :
    Joined p { s with thr := Function.update s.thr i (.run (pc + 1)), mem := I.run s.mem } m1 := by
  obtain ⟨hI, hpc⟩ := mem_of_getElem? h2
  have hs := hp.sound i I hI
  have hci : s.count p i = pc := by simp [State.count, h1]
  have hread : ∀ a ∈ I.reads, s.mem a = runAll ((p.prog i).take pc) m1 a := by
    intro a ha
    by_cases hw : a ∈ p.Wr i
    · rw [h.wr i a hw, hci]
    · have hno : ∀ j, a ∉ p.Wr j := by
        rintro j ⟨J, hJ, hJa⟩
        by_cases hij : i = j
        · subst hij; exact hw ⟨J, hJ, hJa⟩
        · exact hp.disj i j hij I hI J hJ (Or.inr ⟨a, hJa, Or.inl ha⟩)
      rw [h.other a hno, runAll_frame]
      · intro J hJ; exact hp.sound i J (List.mem_of_mem_take hJ)
      · intro J hJ hJa; exact hno i ⟨J, List.mem_of_mem_take hJ, hJa⟩
  refine ⟨fun j a ha => ?_, fun a ha => ?_⟩
  · simp only [State.count]
    by_cases hij : j = i
    · subst hij
      rw [Function.update_self, runAll_take_succ _ _ _ h2]
      by_cases hw : a ∈ I.writes
      · exact hs.dep _ _ hread a hw
      · rw [hs.frame _ _ hw, hs.frame _ _ hw, h.wr _ a ha, hci]
    · rw [Function.update_of_ne hij]
      obtain ⟨J, hJ, hJa⟩ := ha
      rw [hs.frame _ _ fun hw => hp.disj i j (Ne.symm hij) I hI J hJ (Or.inl ⟨a, hw, Or.inr hJa⟩)]
      exact h.wr j a ⟨J, hJ, hJa⟩
  · show I.run s.mem a = _
    rw [hs.frame _ _ fun hw => ha i ⟨I, hI, hw⟩, h.other a ha]

/-- The description of the memory only depends on how far the goroutines are. -/
theorem Joined.congr {p : Program V} {s s' : State V} {m1 : Store V} (h : Joined p s m1) (hm : s'.mem = s.mem)
    (hc : ∀ i, s'.count p i = s.count p i) : Joined p s' m1 :=
  ⟨fun i a ha => by rw [hm, hc, h.wr i a ha], fun a ha => by rw [hm, h.other a ha]⟩

theorem count_update_ne (p : Program V) (s : State V) (i j : ℕ) (x : Thr) (h : j ≠ i) (mn : Main) (wg : ℕ) (m : Store V) :
    State.count p ⟨mn, Function.update s.thr i x, wg, m⟩ j = s.count p j := by
  simp [State.count, Function.update_of_ne h]

theorem card_running_update (P : ℕ) (f : ℕ → Thr) (i : ℕ) (hi : i < P) (x : Thr) :
    ((range P).filter fun j => (Function.update f i x j).running).card + (if (f i).running then 1 else 0) =
      ((range P).filter fun j => (f j).running).card + (if x.running then 1 else 0) := by
  have key : ∀ g : ℕ → Thr, ((range P).filter fun j => (g j).running).card =
      (((range P).erase i).filter fun j => (g j).running).card + (if (g i).running then 1 else 0) := by
    intro g
    rw [card_filter, card_filter, ← sum_erase_add _ _ (mem_range.2 hi)]
  rw [key f, key (Function.update f i x), Function.update_self]
  have : ((range P).erase i).filter (fun j => (Function.update f i x j).running) =
      ((range P).erase i).filter fun j => (f j).running := by
    apply filter_congr
    intro j hj
    rw [Function.update_of_ne (ne_of_mem_erase hj)]
  rw [this]; ring

theorem postLoop_succ (p : Program V) (n : ℕ) (m : Store V) :
    postLoop p (n + 1) m = (postLoop p n m).bind fun m => if p.on n then p.post n m else some m := by
  simp [postLoop, List.range_succ, List.foldlM_append]

theorem postLoop_none (p : Program V) (n k : ℕ) (h : n ≤ k) (m : Store V) (hn : postLoop p n m = none) :
    postLoop p k m = none := by
  induction k, h using Nat.le_induction with
  | base => exact hn
  | succ k _ ih => rw [postLoop_succ, ih]; rfl

theorem finv_lt {p : Program V} {m0 : Store V} {s : State V} (h : FInv p m0 s) {i : ℕ} (hi : s.thr i ≠ .idle) :
    i < p.P := by
  by_contra hc
  exact hi (h.idle_of i (h.le.trans (not_lt.1 hc)))

theorem finv_step {p : Program V} (hp : p.Indep) {m0 : Store V} {s s' : State V} (h : FInv p m0 s) (hs : Step p s s') :
    FInv p m0 s' := by
  cases hs with
  | pre pc I h1 h2 =>
    obtain ⟨a1, a2, a3⟩ := h.pre_ok pc h1
    obtain ⟨-, hlt⟩ := mem_of_getElem? h2
    refine { h with pre_ok := ?_, le := Nat.zero_le _, go_on := by simp, on_ok := by simp [Main.started], wg_ok := ?_, mem_ok := by simp, fin_ok := by simp [Main.early], post_ok := by simp, ret_ok := by simp, panic_ok := by simp, idle_of := fun i _ => a3 i }
    · intro pc' hpc'
      obtain rfl : pc + 1 = pc' := by simpa using hpc'
      exact ⟨hlt, by rw [runAll_take_succ _ _ _ h2, ← a2], a3⟩
    · have := h.wg_ok
      rw [h1] at this
      exact this
  | enter h1 =>
    obtain ⟨a1, a2, a3⟩ := h.pre_ok _ h1
    refine { h with pre_ok := by simp, le := Nat.zero_le _, go_on := by simp, on_ok := by simp [Main.started], wg_ok := ?_, mem_ok := ?_, fin_ok := by simp [Main.early], post_ok := by simp, ret_ok := by simp, panic_ok := by simp, idle_of := fun i _ => a3 i }
    · have := h.wg_ok
      rw [h1] at this
      exact this
    · intro _ _
      rw [List.take_length] at a2
      refine ⟨fun i a _ => ?_, fun a _ => by rw [a2]⟩
      simp only [State.count, a3 i, List.take_zero]
      rw [a2]; rfl
  | skip i h1 h2 h3 =>
    refine { h with pre_ok := by simp, le := h2, go_on := by simp, on_ok := ?_, wg_ok := ?_, mem_ok := ?_, fin_ok := by simp [Main.early], post_ok := by simp, ret_ok := by simp, panic_ok := by simp, idle_of := ?_ }
    · intro j hj; exact h.idle_of j (by rw [h1]; simp only [Main.started] at hj ⊢; omega)
    · intro j hj hon
      simp only [Main.started] at hj
      have : j ≠ i := by rintro rfl; simp [h3] at hon
      exact h.on_ok j (by rw [h1]; simp only [Main.started]; omega) hon
    · have := h.wg_ok
      rw [h1] at this
      exact this
    · intro _ _
      exact (h.mem_ok (by simp [h1, Main.early]) (by simp [h1])).congr rfl fun _ => rfl
  | add i h1 h2 h3 =>
    refine { h with pre_ok := by simp, le := h2.le, go_on := ?_, on_ok := ?_, wg_ok := ?_, mem_ok := ?_, fin_ok := by simp [Main.early], post_ok := by simp, ret_ok := by simp, panic_ok := by simp, idle_of := ?_ }
    · intro j hj
      obtain rfl : i = j := by simpa using hj
      exact ⟨h3, h2⟩
    · intro j hj; exact h.idle_of j (by rw [h1]; exact hj)
    · intro j hj hon; exact h.on_ok j (by rw [h1]; exact hj) hon
    · have := h.wg_ok
      rw [h1] at this
      exact congrArg (· + 1) this
    · intro _ _
      exact (h.mem_ok (by simp [h1, Main.early]) (by simp [h1])).congr rfl fun _ => rfl
  | go i h1 =>
    obtain ⟨hon, hlt⟩ := h.go_on i h1
    have hid : s.thr i = .idle := h.idle_of i (by rw [h1]; exact le_rfl)
    refine { h with pre_ok := by simp, le := hlt, go_on := by simp, off := ?_, on_ok := ?_, pc_le := ?_, wg_ok := ?_, mem_ok := ?_, fin_ok := by simp [Main.early], post_ok := by simp, ret_ok := by simp, panic_ok := by simp, idle_of := ?_ }
    · intro j hj
      simp only [Main.started] at hj
      show Function.update s.thr i _ j = _
      rw [Function.update_of_ne (by omega)]
      exact h.idle_of j (by rw [h1]; simp only [Main.started]; omega)
    · intro j hj
      have : j ≠ i := by rintro rfl; simp [hon] at hj
      show Function.update s.thr i _ j = _
      rw [Function.update_of_ne this]; exact h.off j hj
    · intro j hj hon'
      simp only [Main.started] at hj
      show Function.update s.thr i _ j ≠ _
      by_cases hji : j = i
      · subst hji; rw [Function.update_self]; simp
      · rw [Function.update_of_ne hji]; exact h.on_ok j (by rw [h1]; simp only [Main.started]; omega) hon'
    · intro j
      by_cases hji : j = i
      · subst hji; simp [State.count]
      · rw [count_update_ne _ _ _ _ _ hji]; exact h.pc_le j
    · have := h.wg_ok
      have hc := card_running_update p.P s.thr i hlt (.run 0)
      rw [hid] at hc
      rw [h1] at this
      simp only [Main.pending, show Thr.idle.running = false from rfl, show (Thr.run 0).running = true from rfl] at this hc ⊢
      simp only [if_true] at hc
      simp only [Bool.false_eq_true, if_false] at hc
      omega
    · intro _ _
      refine (h.mem_ok (by simp [h1, Main.early]) (by simp [h1])).congr rfl fun j => ?_
      by_cases hji : j = i
      · subst hji; simp [State.count, hid]
      · rw [count_update_ne _ _ _ _ _ hji]
  | exec i pc I h1 h2 =>
    have hlt : i < p.P := finv_lt h (by rw [h1]; simp)
    have hrun : (s.thr i).running = true := by rw [h1]; rfl
    have hearly : s.main.early = true := by
      by_contra hc
      rw [Bool.not_eq_true] at hc
      have hon : p.on i = true := by
        by_contra hoff
        rw [Bool.not_eq_true] at hoff
        have := h.off i hoff
        rw [h1] at this; simp at this
      have := h.fin_ok hc i hon hlt
      rw [h1] at this; simp at this
    have hnp : ∀ pc, s.main ≠ .pre pc := by
      intro pc' hpc'
      have := (h.pre_ok pc' hpc').2.2 i
      rw [h1] at this; simp at this
    refine { h with pre_ok := fun pc' hpc' => absurd hpc' (hnp pc'), off := ?_, on_ok := ?_, pc_le := ?_, wg_ok := ?_, mem_ok := ?_, fin_ok := ?_, post_ok := ?_, ret_ok := ?_, panic_ok := ?_, idle_of := ?_ }
    · intro j hj
      have hji : j ≠ i := by
        rintro rfl
        have := h.idle_of j hj
        rw [h1] at this; simp at this
      show Function.update s.thr i _ j = _
      rw [Function.update_of_ne hji]; exact h.idle_of j hj
    · intro j hj
      have hji : j ≠ i := by
        rintro rfl
        have := h.off j hj
        rw [h1] at this; simp at this
      show Function.update s.thr i _ j = _
      rw [Function.update_of_ne hji]; exact h.off j hj
    · intro j hj hon
      show Function.update s.thr i _ j ≠ _
      by_cases hji : j = i
      · subst hji; rw [Function.update_self]; simp
      · rw [Function.update_of_ne hji]; exact h.on_ok j hj hon
    · intro j
      by_cases hji : j = i
      · subst hji; simpa [State.count] using (mem_of_getElem? h2).2
      · rw [count_update_ne _ _ _ _ _ hji]; exact h.pc_le j
    · have := h.wg_ok
      have hc := card_running_update p.P s.thr i hlt (.run (pc + 1))
      rw [hrun, show (Thr.run (pc + 1)).running = true from rfl] at hc
      have hc' := Nat.add_right_cancel hc
      show s.wg = _
      rw [this]
      show _ = (((range p.P).filter fun j => (Function.update s.thr i (.run (pc + 1)) j).running).card + _)
      rw [hc']
    · intro _ _
      exact joined_exec hp (h.mem_ok hearly hnp) h1 h2
    · intro hc; exact absurd (show s.main.early = false from hc) (by simp [hearly])
    · intro k hk
      have : s.main = .post k := hk
      rw [this] at hearly; simp [Main.early] at hearly
    · intro hk
      have : s.main = .returned := hk
      rw [this] at hearly; simp [Main.early] at hearly
    · intro hk
      have : s.main = .panicked := hk
      rw [this] at hearly; simp [Main.early] at hearly
  | done i h1 h2 =>
    have hlt : i < p.P := finv_lt h (by rw [h1]; simp)
    have hrun : (s.thr i).running = true := by rw [h1]; rfl
    have hearly : s.main.early = true := by
      by_contra hc
      rw [Bool.not_eq_true] at hc
      have hon : p.on i = true := by
        by_contra hoff
        rw [Bool.not_eq_true] at hoff
        have := h.off i hoff
        rw [h1] at this; simp at this
      have := h.fin_ok hc i hon hlt
      rw [h1] at this; simp at this
    have hnp : ∀ pc, s.main ≠ .pre pc := by
      intro pc' hpc'
      have := (h.pre_ok pc' hpc').2.2 i
      rw [h1] at this; simp at this
    refine { h with pre_ok := fun pc' hpc' => absurd hpc' (hnp pc'), off := ?_, on_ok := ?_, pc_le := ?_, wg_ok := ?_, mem_ok := ?_, fin_ok := ?_, post_ok := ?_, ret_ok := ?_, panic_ok := ?_, idle_of := ?_ }
    · intro j hj
      have hji : j ≠ i := by
        rintro rfl
        have := h.idle_of j hj
        rw [h1] at this; simp at this
      show Function.update s.thr i _ j = _
      rw [Function.update_of_ne hji]; exact h.idle_of j hj
    · intro j hj
      have hji : j ≠ i := by
        rintro rfl
        have := h.off j hj
        rw [h1] at this; simp at this
      show Function.update s.thr i _ j = _
      rw [Function.update_of_ne hji]; exact h.off j hj
    · intro j hj hon
      show Function.update s.thr i _ j ≠ _
      by_cases hji : j = i
      · subst hji; rw [Function.update_self]; simp
      · rw [Function.update_of_ne hji]; exact h.on_ok j hj hon
    · intro j
      by_cases hji : j = i
      · subst hji; simp [State.count]
      · rw [count_update_ne _ _ _ _ _ hji]; exact h.pc_le j
    · have := h.wg_ok
      have hc := card_running_update p.P s.thr i hlt .fin
      rw [hrun, show Thr.fin.running = false from rfl] at hc
      simp only [if_true, Bool.false_eq_true, if_false] at hc
      show s.wg - 1 = ((range p.P).filter fun j => (Function.update s.thr i .fin j).running).card + s.main.pending
      omega
    · intro _ _
      refine (h.mem_ok hearly hnp).congr rfl fun j => ?_
      by_cases hji : j = i
      · subst hji; simp [State.count, h1]
      · rw [count_update_ne _ _ _ _ _ hji]
    · intro hc; exact absurd (show s.main.early = false from hc) (by simp [hearly])
    · intro k hk
      have : s.main = .post k := hk
      rw [this] at hearly; simp [Main.early] at hearly
    · intro hk
      have : s.main = .returned := hk
      rw [this] at hearly; simp [Main.early] at hearly
    · intro hk
      have : s.main = .panicked := hk
      rw [this] at hearly; simp [Main.early] at hearly
  | donePanic i h1 h2 =>
    exfalso
    have hlt : i < p.P := finv_lt h (by rw [h1]; simp)
    have := h.wg_ok
    rw [h2] at this
    have hc : ((range p.P).filter fun i => (s.thr i).running).card = 0 := by omega
    rw [card_eq_zero] at hc
    have hm : i ∈ (range p.P).filter fun i => (s.thr i).running := by
      rw [mem_filter]; exact ⟨mem_range.2 hlt, by rw [h1]; rfl⟩
    rw [hc] at hm; simp at hm
  | wait h1 h2 =>
    have hfin : ∀ i, p.on i = true → i < p.P → s.thr i = .fin := by
      intro i hon hlt
      have hni := h.on_ok i (by rw [h1]; exact hlt) hon
      have := h.wg_ok
      rw [h2] at this
      have hc : ((range p.P).filter fun i => (s.thr i).running).card = 0 := by omega
      rw [card_eq_zero, filter_eq_empty_iff] at hc
      have := hc (mem_range.2 hlt)
      cases ht : s.thr i with
      | idle => exact absurd ht hni
      | run pc => rw [ht] at this; simp [Thr.running] at this
      | fin => rfl
    refine { h with pre_ok := by simp, le := le_rfl, go_on := by simp, on_ok := ?_, wg_ok := ?_, mem_ok := by simp [Main.early], fin_ok := fun _ => hfin, post_ok := ?_, ret_ok := by simp, panic_ok := by simp, idle_of := ?_ }
    · intro j hj; exact h.idle_of j (by rw [h1]; exact hj)
    · intro j hj hon; exact h.on_ok j (by rw [h1]; exact hj) hon
    · have := h.wg_ok
      rw [h1] at this
      exact this
    · intro k hk
      obtain rfl : 0 = k := by simpa using hk
      exact ⟨Nat.zero_le _, s, h.mem_ok (by simp [h1, Main.early]) (by simp [h1]), rfl, rfl⟩
  | postSkip i h1 h2 h3 =>
    obtain ⟨-, s0, b1, b2, b3⟩ := h.post_ok i h1
    refine { h with pre_ok := by simp, le := le_rfl, go_on := by simp, on_ok := ?_, wg_ok := ?_, mem_ok := by simp [Main.early], fin_ok := fun _ => h.fin_ok (by rw [h1]; rfl), post_ok := ?_, ret_ok := by simp, panic_ok := by simp, idle_of := ?_ }
    · intro j hj; exact h.idle_of j (by rw [h1]; exact hj)
    · intro j hj hon; exact h.on_ok j (by rw [h1]; exact hj) hon
    · have := h.wg_ok
      rw [h1] at this
      exact this
    · intro k hk
      obtain rfl : i + 1 = k := by simpa using hk
      exact ⟨h2, s0, b1, b2, by rw [postLoop_succ, b3]; simp [h3]⟩
  | post i m h1 h2 h3 h4 =>
    obtain ⟨-, s0, b1, b2, b3⟩ := h.post_ok i h1
    refine { h with pre_ok := by simp, le := le_rfl, go_on := by simp, on_ok := ?_, wg_ok := ?_, mem_ok := by simp [Main.early], fin_ok := fun _ => h.fin_ok (by rw [h1]; rfl), post_ok := ?_, ret_ok := by simp, panic_ok := by simp, idle_of := ?_ }
    · intro j hj; exact h.idle_of j (by rw [h1]; exact hj)
    · intro j hj hon; exact h.on_ok j (by rw [h1]; exact hj) hon
    · have := h.wg_ok
      rw [h1] at this
      exact this
    · intro k hk
      obtain rfl : i + 1 = k := by simpa using hk
      exact ⟨h2, s0, b1, b2, by rw [postLoop_succ, b3]; simp [h3, h4]⟩
  | postPanic i h1 h2 h3 h4 =>
    obtain ⟨-, s0, b1, b2, b3⟩ := h.post_ok i h1
    refine { h with pre_ok := by simp, le := le_rfl, go_on := by simp, on_ok := ?_, wg_ok := ?_, mem_ok := by simp [Main.early], fin_ok := fun _ => h.fin_ok (by rw [h1]; rfl), post_ok := by simp, ret_ok := by simp, panic_ok := ?_, idle_of := ?_ }
    · intro j hj; exact h.idle_of j (by rw [h1]; exact hj)
    · intro j hj hon; exact h.on_ok j (by rw [h1]; exact hj) hon
    · have := h.wg_ok
      rw [h1] at this
      exact this
    · intro _
      exact ⟨s0, b1, b2, postLoop_none p (i + 1) _ h2 _ (by rw [postLoop_succ, b3]; simp [h3, h4])⟩
  | ret h1 =>
    obtain ⟨-, s0, b1, b2, b3⟩ := h.post_ok _ h1
    refine { h with pre_ok := by simp, le := le_rfl, go_on := by simp, on_ok := ?_, wg_ok := ?_, mem_ok := by simp [Main.early], fin_ok := fun _ => h.fin_ok (by rw [h1]; rfl), post_ok := by simp, ret_ok := fun _ => ⟨s0, b1, b2, b3⟩, panic_ok := by simp, idle_of := ?_ }
    · intro j hj; exact h.idle_of j (by rw [h1]; exact hj)
    · intro j hj hon; exact h.on_ok j (by rw [h1]; exact hj) hon
    · have := h.wg_ok
      rw [h1] at this
      exact this

theorem finv_reach {p : Program V} (hp : p.Indep) {m0 : Store V} {s : State V} (h : Reach p m0 s) : FInv p m0 s := by
  induction h with
  | start => exact finv_start p m0
  | step s s' _ hs ih => exact finv_step hp ih hs

/-- The steps that are left for the caller. -/
def Main.left (p : Program V) : Main → ℕ
  | .pre pc => (p.pre.length - pc) + 3 * p.P + 4
  | .spawn i => 2 * (p.P - i) + p.P + 3
  | .go i => 2 * (p.P - i) + p.P + 2
  | .post i => (p.P - i) + 2
  | .returned => 0
  | .panicked => 0

/-- The steps that are left for a goroutine. -/
def Thr.left (len : ℕ) : Thr → ℕ
  | .idle => len + 2
  | .run pc => len - pc + 1
  | .fin => 0

/-- An upper bound for the number of steps that are left. -/
def State.left (p : Program V) (s : State V) : ℕ :=
  s.main.left p + ∑ i ∈ range p.P, (s.thr i).left (p.prog i).length

theorem sum_update_lt (P : ℕ) (f : ℕ → Thr) (len : ℕ → ℕ) (i : ℕ) (hi : i < P) (x : Thr)
    (hx : x.left (len i) < (f i).left (len i)) :
    ∑ j ∈ range P, (Function.update f i x j).left (len j) < ∑ j ∈ range P, (f j).left (len j) := by
  apply sum_lt_sum
  · intro j _
    by_cases hj : j = i
    · subst hj; rw [Function.update_self]; exact hx.le
    · rw [Function.update_of_ne hj]
  · exact ⟨i, mem_range.2 hi, by rw [Function.update_self]; exact hx⟩

theorem left_step {p : Program V} {m0 : Store V} {s s' : State V} (h : FInv p m0 s) (hs : Step p s s') :
    s'.left p < s.left p := by
  cases hs with
  | pre pc I h1 h2 =>
    have := (mem_of_getElem? h2).2
    simp only [State.left, h1, Main.left]; omega
  | enter h1 => simp only [State.left, h1, Main.left]; omega
  | skip i h1 h2 h3 => simp only [State.left, h1, Main.left]; omega
  | add i h1 h2 h3 => simp only [State.left, h1, Main.left]; omega
  | go i h1 =>
    have hlt := (h.go_on i h1).2
    have hid : s.thr i = .idle := h.idle_of i (by rw [h1]; exact le_rfl)
    have := sum_update_lt p.P s.thr (fun i => (p.prog i).length) i hlt (.run 0) (by rw [hid]; simp [Thr.left])
    simp only [State.left, h1, Main.left]; omega
  | exec i pc I h1 h2 =>
    have := (mem_of_getElem? h2).2
    have := sum_update_lt p.P s.thr (fun i => (p.prog i).length) i (finv_lt h (by rw [h1]; simp)) (.run (pc + 1))
      (by rw [h1]; simp only [Thr.left]; omega)
    simp only [State.left]; omega
  | done i h1 h2 =>
    have := sum_update_lt p.P s.thr (fun i => (p.prog i).length) i (finv_lt h (by rw [h1]; simp)) .fin
      (by rw [h1]; simp [Thr.left])
    simp only [State.left]; omega
  | donePanic i h1 h2 =>
    have := sum_update_lt p.P s.thr (fun i => (p.prog i).length) i (finv_lt h (by rw [h1]; simp)) .fin
      (by rw [h1]; simp [Thr.left])
    simp only [State.left, Main.left]; omega
  | wait h1 h2 => simp only [State.left, h1, Main.left]; omega
  | postSkip i h1 h2 h3 => simp only [State.left, h1, Main.left]; omega
  | post i m h1 h2 h3 h4 => simp only [State.left, h1, Main.left]; omega
  | postPanic i h1 h2 h3 h4 => simp only [State.left, h1, Main.left]; omega
  | ret h1 => simp only [State.left, h1, Main.left]; omega

/-- Some goroutine can act as long as the caller has not returned. -/
theorem fork_progress {p : Program V} {m0 : Store V} {s : State V} (h : FInv p m0 s) (h1 : s.main ≠ .returned)
    (h2 : s.main ≠ .panicked) : ∃ s', Step p s s' := by
  rcases hm : s.main with pc | i | i | i | _ | _
  · have hle := (h.pre_ok pc hm).1
    rcases hle.lt_or_eq with hlt | rfl
    · exact ⟨_, Step.pre s pc _ hm (List.getElem?_eq_getElem hlt)⟩
    · exact ⟨_, Step.enter s hm⟩
  · have hle := h.le
    rw [hm] at hle
    rcases hle.lt_or_eq with hlt | heq
    · cases ho : p.on i
      · exact ⟨_, Step.skip s i hm hlt ho⟩
      · exact ⟨_, Step.add s i hm hlt ho⟩
    · simp only [Main.started] at heq
      subst heq
      by_cases hw : s.wg = 0
      · exact ⟨_, Step.wait s hm hw⟩
      · have hwg := h.wg_ok
        rw [hm] at hwg
        have : ((range p.P).filter fun i => (s.thr i).running).card ≠ 0 := by
          simp only [Main.pending] at hwg; omega
        obtain ⟨j, hj⟩ := card_ne_zero.1 this
        have hr := (mem_filter.1 hj).2
        rcases ht : s.thr j with _ | pc | _
        · rw [ht] at hr; simp [Thr.running] at hr
        · have hle := h.pc_le j
          simp only [State.count, ht] at hle
          rcases hle.lt_or_eq with hlt | rfl
          · exact ⟨_, Step.exec s j pc _ ht (List.getElem?_eq_getElem hlt)⟩
          · exact ⟨_, Step.done s j ht hw⟩
        · rw [ht] at hr; simp [Thr.running] at hr
  · exact ⟨_, Step.go s i hm⟩
  · have hle := (h.post_ok i hm).1
    rcases hle.lt_or_eq with hlt | rfl
    · cases ho : p.on i
      · exact ⟨_, Step.postSkip s i hm hlt ho⟩
      · cases hp : p.post i s.mem with
        | none => exact ⟨_, Step.postPanic s i hm hlt ho hp⟩
        | some m => exact ⟨_, Step.post s i m hm hlt ho hp⟩
    · exact ⟨_, Step.ret s hm⟩
  · exact absurd hm h1
  · exact absurd hm h2

/-- The memory after `wg.Wait()`: what goroutine `i` writes is as if it had run alone. -/
structure AfterJoin (p : Program V) (m1 mj : Store V) : Prop where
  wr : ∀ i < p.P, p.on i = true → ∀ a ∈ p.Wr i, mj a = runAll (p.prog i) m1 a
  other : ∀ a, (∀ i < p.P, p.on i = true → a ∉ p.Wr i) → mj a = m1 a

theorem afterJoin_of {p : Program V} {m0 : Store V} {s s0 : State V} (h : FInv p m0 s) (hl : s.main.early = false)
    (b1 : Joined p s0 (runAll p.pre m0)) (b2 : s0.thr = s.thr) : AfterJoin p (runAll p.pre m0) s0.mem := by
  have hc : ∀ i, s0.count p i = s.count p i := fun i => by simp only [State.count, b2]
  refine ⟨fun i hi hon a ha => ?_, fun a ha => ?_⟩
  · rw [b1.wr i a ha, hc]
    simp only [State.count, h.fin_ok hl i hon hi, List.take_length]
  · by_cases hex : ∃ i, a ∈ p.Wr i
    · obtain ⟨i, hi⟩ := hex
      rw [b1.wr i a hi, hc]
      have hid : s.thr i = .idle := by
        by_cases hlt : i < p.P
        · cases hon : p.on i
          · exact h.off i hon
          · exact absurd hi (ha i hlt hon)
        · exact h.idle_of i (h.le.trans (not_lt.1 hlt))
      simp only [State.count, hid, List.take_zero]; rfl
    · exact b1.other a fun i hi => hex ⟨i, hi⟩
end Tfhe.Fork
