import Verif.Model.Parallel
import Mathlib.Data.List.Nodup
import Mathlib.Data.List.ProdSigma
import Mathlib.Data.Fintype.Basic
import Mathlib.Data.Finset.Card
import Mathlib.Logic.Relation
import Mathlib.Algebra.BigOperators.Fin
import Mathlib.Algebra.Order.BigOperators.Group.Finset

/-! # Invariant and measure of the worker pool -/
namespace Tfhe.Par
variable {c : ℕ} {σ τ : Type}

/-- What holds in every state that can be reached.  `L` is a property of local states that the
instructions preserve. -/
structure Inv (jobs : List Job) (b : Body σ τ) (L : σ → Prop) (mem0 : Job → τ) (s : State c σ τ) : Prop where
  next_le : s.next ≤ jobs.length
  closed : s.closed = true → s.next = jobs.length
  loc : ∀ w, L (s.loc w)
  busy : ∀ w job pc, s.worker w = .busy job pc → job ∈ jobs.take s.next ∧ pc ≤ b.len job ∧
    ∃ l0, L l0 ∧ b.run job l0 (mem0 job) pc = (s.loc w, s.mem job)
  excl : ∀ w w' job pc pc', s.worker w = .busy job pc → s.worker w' = .busy job pc' → w = w'
  fin : ∀ job ∈ jobs.take s.next, (∃ w pc, s.worker w = .busy job pc) ∨
    ∃ l0, L l0 ∧ s.mem job = (b.run job l0 (mem0 job) (b.len job)).2
  fresh : ∀ job, job ∉ jobs.take s.next → s.mem job = mem0 job
  wg : s.wg = (Finset.univ.filter fun w => s.worker w ≠ .done).card
  done : ∀ w, s.worker w = .done → s.closed = true
  started : ∀ w, s.worker w ≠ .recv → w.1 < s.started
  started_le : s.started ≤ c
  ret : s.returned = true → s.wg = 0 ∧ s.started = c
  hist : s.hist.map Prod.snd = jobs.take s.next

variable {jobs : List Job} {b : Body σ τ} {L : σ → Prop} {mem0 : Job → τ}

theorem inv_init (loc : Fin c → σ) (hL : ∀ w, L (loc w)) : Inv jobs b L mem0 (init loc mem0) where
  next_le := by simp [init]
  closed := by simp [init]
  loc := hL
  busy := by simp [init]
  excl := by simp [init]
  fin := by simp [init]
  fresh := by simp [init]
  wg := by simp [init]
  done := by simp [init]
  started := by simp [init]
  started_le := by simp [init]
  ret := by simp [init]
  hist := by simp [init]

theorem card_filter_update_eq (f : Fin c → Worker) (w : Fin c) (x : Worker) (h : f w ≠ .done) (hx : x ≠ .done) :
    (Finset.univ.filter fun v => Function.update f w x v ≠ .done).card =
      (Finset.univ.filter fun v => f v ≠ .done).card := by
  congr 1
  ext v
  by_cases hv : v = w
  · subst hv; simp [h, hx]
  · simp [Function.update_of_ne hv]

theorem inv_step (hnd : jobs.Nodup) (hL : ∀ job pc l t, L l → L (b.instr job pc l t).1)
    {s s' : State c σ τ} (h : Inv jobs b L mem0 s) (hs : Step jobs b s s') : Inv jobs b L mem0 s' := by
  cases hs with
  | start h1 =>
    exact { h with
      started := fun w hw => Nat.lt_succ_of_lt (h.started w hw)
      started_le := h1
      ret := fun hr => absurd (h.ret hr).2 (by omega) }
  | send w job h1 h2 h3 =>
    have hlt : s.next < jobs.length := by
      by_contra hc
      rw [List.getElem?_eq_none (by omega)] at h1; simp at h1
    have hget : jobs[s.next] = job := by
      rw [List.getElem?_eq_getElem hlt] at h1; simpa using h1
    have htake : jobs.take (s.next + 1) = jobs.take s.next ++ [job] := by
      rw [List.take_add_one, h1]; rfl
    have hnot : job ∉ jobs.take s.next := by
      have := hnd.sublist (List.take_sublist (s.next + 1) jobs)
      rw [htake, List.nodup_append] at this
      intro hmem
      exact this.2.2 job hmem job (by simp) rfl
    have hnb : ∀ v pc, s.worker v ≠ .busy job pc := fun v pc hv => hnot (h.busy v job pc hv).1
    refine
      { next_le := hlt
        closed := fun hc => absurd (h.closed hc) (by omega)
        loc := h.loc
        busy := ?_
        excl := ?_
        fin := ?_
        fresh := ?_
        wg := ?_
        done := ?_
        started := ?_
        started_le := h.started_le
        ret := ?_
        hist := ?_ }
    · intro v job' pc hv
      simp only at hv ⊢
      by_cases hvw : v = w
      · subst hvw
        rw [Function.update_self] at hv
        injection hv with e1 e2
        subst e1 e2
        refine ⟨by rw [htake]; simp, Nat.zero_le _, s.loc v, h.loc v, ?_⟩
        rw [h.fresh job hnot]; rfl
      · rw [Function.update_of_ne hvw] at hv
        obtain ⟨a1, a2⟩ := h.busy v job' pc hv
        exact ⟨by rw [htake]; exact List.mem_append_left _ a1, a2⟩
    · intro v v' job' pc pc' hv hv'
      simp only at hv hv'
      by_cases hvw : v = w <;> by_cases hvw' : v' = w
      · rw [hvw, hvw']
      · rw [hvw, Function.update_self] at hv
        rw [Function.update_of_ne hvw'] at hv'
        injection hv with e1 e2
        subst e1
        exact absurd hv' (hnb v' pc')
      · rw [hvw', Function.update_self] at hv'
        rw [Function.update_of_ne hvw] at hv
        injection hv' with e1 e2
        subst e1
        exact absurd hv (hnb v pc)
      · rw [Function.update_of_ne hvw] at hv
        rw [Function.update_of_ne hvw'] at hv'
        exact h.excl v v' job' pc pc' hv hv'
    · intro job' hj
      simp only at hj ⊢
      rw [htake, List.mem_append, List.mem_singleton] at hj
      rcases hj with hj | rfl
      · rcases h.fin job' hj with ⟨v, pc, hv⟩ | hd
        · refine Or.inl ⟨v, pc, ?_⟩
          have : v ≠ w := by rintro rfl; rw [h3] at hv; simp at hv
          rw [Function.update_of_ne this]; exact hv
        · exact Or.inr hd
      · exact Or.inl ⟨w, 0, Function.update_self ..⟩
    · intro job' hj
      simp only at hj ⊢
      rw [htake] at hj
      exact h.fresh job' fun hm => hj (List.mem_append_left _ hm)
    · simp only
      rw [card_filter_update_eq _ _ _ (by rw [h3]; simp) (by simp)]; exact h.wg
    · intro v hv
      simp only at hv
      by_cases hvw : v = w
      · subst hvw; rw [Function.update_self] at hv; simp at hv
      · rw [Function.update_of_ne hvw] at hv; exact h.done v hv
    · intro v hv
      simp only at hv ⊢
      by_cases hvw : v = w
      · subst hvw; exact h2
      · rw [Function.update_of_ne hvw] at hv; exact h.started v hv
    · exact h.ret
    · simp only [List.map_append, h.hist, htake, List.map_cons, List.map_nil]
  | close h1 h2 =>
    exact { h with
      closed := fun _ => h1
      done := fun _ _ => rfl }
  | exec w job pc h1 h2 =>
    obtain ⟨a1, a2, l0, hl0, a3⟩ := h.busy w job pc h1
    refine { h with
      loc := ?_
      busy := ?_
      excl := ?_
      fin := ?_
      fresh := ?_
      wg := ?_
      done := ?_
      started := ?_ }
    · intro v
      simp only
      by_cases hvw : v = w
      · subst hvw; rw [Function.update_self]; exact hL _ _ _ _ (h.loc v)
      · rw [Function.update_of_ne hvw]; exact h.loc v
    · intro v job' pc' hv
      simp only at hv ⊢
      by_cases hvw : v = w
      · subst hvw
        rw [Function.update_self] at hv
        injection hv with e1 e2
        subst e1 e2
        refine ⟨a1, h2, l0, hl0, ?_⟩
        rw [Function.update_self, Function.update_self, Body.run, a3]
      · rw [Function.update_of_ne hvw] at hv
        have hj : job' ≠ job := by
          rintro rfl
          exact hvw (h.excl v w job' pc' pc hv h1)
        rw [Function.update_of_ne hvw, Function.update_of_ne hj]
        exact h.busy v job' pc' hv
    · intro v v' job' p p' hv hv'
      simp only at hv hv'
      have key : ∀ u q, Function.update s.worker w (.busy job (pc + 1)) u = .busy job' q →
          ∃ q', s.worker u = .busy job' q' := by
        intro u q hu
        by_cases huw : u = w
        · subst huw
          rw [Function.update_self] at hu
          injection hu with e1 e2
          subst e1
          exact ⟨pc, h1⟩
        · rw [Function.update_of_ne huw] at hu; exact ⟨q, hu⟩
      obtain ⟨q, hq⟩ := key v p hv
      obtain ⟨q', hq'⟩ := key v' p' hv'
      exact h.excl v v' job' q q' hq hq'
    · intro job' hj
      simp only at hj ⊢
      rcases h.fin job' hj with ⟨v, q, hv⟩ | ⟨l, hl, hd⟩
      · by_cases hvw : v = w
        · subst hvw
          rw [h1] at hv
          injection hv with e1 e2
          subst e1
          exact Or.inl ⟨v, pc + 1, Function.update_self ..⟩
        · exact Or.inl ⟨v, q, by rw [Function.update_of_ne hvw]; exact hv⟩
      · by_cases hjj : job' = job
        · subst hjj
          exact Or.inl ⟨w, pc + 1, Function.update_self ..⟩
        · exact Or.inr ⟨l, hl, by rw [Function.update_of_ne hjj]; exact hd⟩
    · intro job' hj
      simp only at hj ⊢
      have hjj : job' ≠ job := by rintro rfl; exact hj a1
      rw [Function.update_of_ne hjj]; exact h.fresh job' hj
    · simp only
      rw [card_filter_update_eq _ _ _ (by rw [h1]; simp) (by simp)]; exact h.wg
    · intro v hv
      simp only at hv
      by_cases hvw : v = w
      · subst hvw; rw [Function.update_self] at hv; simp at hv
      · rw [Function.update_of_ne hvw] at hv; exact h.done v hv
    · intro v hv
      simp only at hv ⊢
      by_cases hvw : v = w
      · subst hvw; exact h.started v (by rw [h1]; simp)
      · rw [Function.update_of_ne hvw] at hv; exact h.started v hv
  | again w job h1 =>
    obtain ⟨a1, a2, l0, hl0, a3⟩ := h.busy w job _ h1
    have key : ∀ u job' q, Function.update s.worker w .recv u = .busy job' q → u ≠ w ∧ s.worker u = .busy job' q := by
      intro u job' q hu
      by_cases huw : u = w
      · subst huw; rw [Function.update_self] at hu; simp at hu
      · rw [Function.update_of_ne huw] at hu; exact ⟨huw, hu⟩
    unfold State.setW
    refine { h with
      busy := fun v job' pc' hv => h.busy v job' pc' (key v job' pc' hv).2
      excl := fun v v' job' p p' hv hv' => h.excl v v' job' p p' (key v job' p hv).2 (key v' job' p' hv').2
      fin := ?_
      wg := ?_
      done := ?_
      started := ?_ }
    · intro job' hj
      simp only at hj ⊢
      rcases h.fin job' hj with ⟨v, q, hv⟩ | hd
      · by_cases hvw : v = w
        · subst hvw
          rw [h1] at hv
          injection hv with e1 e2
          subst e1
          exact Or.inr ⟨l0, hl0, by rw [a3]⟩
        · exact Or.inl ⟨v, q, by rw [Function.update_of_ne hvw]; exact hv⟩
      · exact Or.inr hd
    · simp only
      rw [card_filter_update_eq _ _ _ (by rw [h1]; simp) (by simp)]; exact h.wg
    · intro v hv
      simp only at hv
      by_cases hvw : v = w
      · subst hvw; rw [Function.update_self] at hv; simp at hv
      · rw [Function.update_of_ne hvw] at hv; exact h.done v hv
    · intro v hv
      simp only at hv ⊢
      by_cases hvw : v = w
      · subst hvw; rw [Function.update_self] at hv; simp at hv
      · rw [Function.update_of_ne hvw] at hv; exact h.started v hv
  | finish w h1 h2 h3 =>
    have key : ∀ u job' q, Function.update s.worker w .done u = .busy job' q → s.worker u = .busy job' q := by
      intro u job' q hu
      by_cases huw : u = w
      · subst huw; rw [Function.update_self] at hu; simp at hu
      · rw [Function.update_of_ne huw] at hu; exact hu
    unfold State.setW
    refine { h with
      busy := fun v job' pc' hv => h.busy v job' pc' (key v job' pc' hv)
      excl := fun v v' job' p p' hv hv' => h.excl v v' job' p p' (key v job' p hv) (key v' job' p' hv')
      fin := ?_
      wg := ?_
      done := fun _ _ => h3
      started := ?_
      ret := ?_ }
    · intro job' hj
      simp only at hj ⊢
      rcases h.fin job' hj with ⟨v, q, hv⟩ | hd
      · refine Or.inl ⟨v, q, ?_⟩
        have : v ≠ w := by rintro rfl; rw [h2] at hv; simp at hv
        rw [Function.update_of_ne this]; exact hv
      · exact Or.inr hd
    · simp only
      rw [h.wg]
      have : (Finset.univ.filter fun v => Function.update s.worker w .done v ≠ .done) =
          (Finset.univ.filter fun v => s.worker v ≠ .done).erase w := by
        ext v
        by_cases hv : v = w
        · subst hv; simp
        · simp [hv]
      rw [this, Finset.card_erase_of_mem]
      simp [h2]
    · intro v hv
      simp only at hv ⊢
      by_cases hvw : v = w
      · subst hvw; exact h1
      · rw [Function.update_of_ne hvw] at hv; exact h.started v hv
    · intro hr
      obtain ⟨r1, r2⟩ := h.ret hr
      exact ⟨by simp only; omega, r2⟩
  | ret h1 h2 h3 =>
    exact { h with ret := fun _ => ⟨h2, h1⟩ }

/-- States that can be reached from the start. -/
def Reach (jobs : List Job) (b : Body σ τ) (loc : Fin c → σ) (mem0 : Job → τ) (s : State c σ τ) : Prop :=
  Relation.ReflTransGen (Step jobs b) (init loc mem0) s

theorem inv_reach (hnd : jobs.Nodup) (hL : ∀ job pc l t, L l → L (b.instr job pc l t).1) (loc : Fin c → σ)
    (hloc : ∀ w, L (loc w)) {s : State c σ τ} (h : Reach jobs b loc mem0 s) : Inv jobs b L mem0 s := by
  unfold Reach at h
  induction h with
  | refl => exact inv_init loc hloc
  | tail _ hs ih => exact inv_step hnd hL ih hs

/-! ## Termination -/

/-- What a worker has still to do. -/
def workerMeasure (b : Body σ τ) : Worker → ℕ
  | .recv => 1
  | .busy job pc => b.len job - pc + 2
  | .done => 0

/-- Decreases with every step. -/
def measure (jobs : List Job) (b : Body σ τ) (s : State c σ τ) : ℕ :=
  ((jobs.drop s.next).map fun j => b.len j + 3).sum + (if s.closed then 0 else 1) +
    ∑ w, workerMeasure b (s.worker w) + (c - s.started) + (if s.returned then 0 else 1)

theorem wm_recv : workerMeasure b .recv = 1 := rfl
theorem wm_busy (job : Job) (pc : ℕ) : workerMeasure b (.busy job pc) = b.len job - pc + 2 := rfl
theorem wm_done : workerMeasure b .done = 0 := rfl

theorem sum_update_lt (b : Body σ τ) (f : Fin c → Worker) (w : Fin c) (x : Worker) :
    ∑ v, workerMeasure b (Function.update f w x v) + workerMeasure b (f w) =
      ∑ v, workerMeasure b (f v) + workerMeasure b x := by
  rw [← Finset.add_sum_erase _ _ (Finset.mem_univ w), ← Finset.add_sum_erase _ (fun v => workerMeasure b (f v))
    (Finset.mem_univ w), Function.update_self]
  have : ∑ v ∈ Finset.univ.erase w, workerMeasure b (Function.update f w x v) =
      ∑ v ∈ Finset.univ.erase w, workerMeasure b (f v) :=
    Finset.sum_congr rfl fun v hv => by rw [Function.update_of_ne (Finset.ne_of_mem_erase hv)]
  rw [this]; omega

theorem measure_step {s s' : State c σ τ} (hs : Step jobs b s s') : measure jobs b s' < measure jobs b s := by
  cases hs with
  | start h1 => unfold measure; simp only; omega
  | send w job h1 h2 h3 =>
    have hlt : s.next < jobs.length := by
      by_contra hc
      rw [List.getElem?_eq_none (by omega)] at h1; simp at h1
    have hget : jobs[s.next] = job := by
      rw [List.getElem?_eq_getElem hlt] at h1; simpa using h1
    have e1 : ((jobs.drop s.next).map fun j => b.len j + 3).sum =
        b.len job + 3 + ((jobs.drop (s.next + 1)).map fun j => b.len j + 3).sum := by
      rw [List.drop_eq_getElem_cons hlt, hget, List.map_cons, List.sum_cons]
    have e2 := sum_update_lt b s.worker w (.busy job 0)
    rw [h3, wm_recv, wm_busy] at e2
    unfold measure
    simp only [e1]
    omega
  | close h1 h2 => unfold measure; simp only [h2]; simp
  | exec w job pc h1 h2 =>
    have e2 := sum_update_lt b s.worker w (.busy job (pc + 1))
    rw [h1, wm_busy, wm_busy] at e2
    unfold measure
    simp only
    omega
  | again w job h1 =>
    have e2 := sum_update_lt b s.worker w .recv
    rw [h1, wm_busy, wm_recv] at e2
    unfold measure State.setW
    simp only
    omega
  | finish w h1 h2 h3 =>
    have e2 := sum_update_lt b s.worker w .done
    rw [h2, wm_recv, wm_done] at e2
    unfold measure State.setW
    simp only
    omega
  | ret h1 h2 h3 => unfold measure; simp only [h3]; simp

/-- If there is a worker or nothing to do, something can happen until the caller has returned. -/
theorem progress {s : State c σ τ} (h : Inv jobs b L mem0 s) (hc : 0 < c ∨ jobs = [])
    (hr : s.returned = false ∨ s.closed = false) : ∃ s', Step jobs b s s' := by
  by_cases hst : s.started < c
  · exact ⟨_, .start s hst⟩
  have hst' : s.started = c := by have := h.started_le; omega
  by_cases hb : ∃ w job pc, s.worker w = .busy job pc
  · obtain ⟨w, job, pc, hw⟩ := hb
    rcases Nat.lt_or_ge pc (b.len job) with hlt | hge
    · exact ⟨_, .exec s w job pc hw hlt⟩
    · have := (h.busy w job pc hw).2.1
      obtain rfl : pc = b.len job := by omega
      exact ⟨_, .again s w job hw⟩
  by_cases hcl : s.closed = true
  · by_cases hw : ∃ w, s.worker w = .recv
    · obtain ⟨w, hw⟩ := hw
      exact ⟨_, .finish s w (by rw [hst']; exact w.2) hw hcl⟩
    · have hall : ∀ w, s.worker w = .done := by
        intro w
        rcases hx : s.worker w with _ | ⟨job, pc⟩ | _
        · exact absurd ⟨w, hx⟩ hw
        · exact absurd ⟨w, job, pc, hx⟩ hb
        · rfl
      have hwg : s.wg = 0 := by
        rw [h.wg, Finset.card_eq_zero, Finset.filter_eq_empty_iff]
        intro w _; simp [hall w]
      rcases hr with hr | hr
      · exact ⟨_, .ret s hst' hwg hr⟩
      · rw [hr] at hcl; exact absurd hcl (by simp)
  · have hcl' : s.closed = false := by simpa using hcl
    rcases Nat.lt_or_ge s.next jobs.length with hlt | hge
    · rcases hc with hc | hc
      · have hw : s.worker ⟨0, hc⟩ = .recv := by
          rcases hx : s.worker ⟨0, hc⟩ with _ | ⟨job, pc⟩ | _
          · rfl
          · exact absurd ⟨_, job, pc, hx⟩ hb
          · exact absurd (h.done _ hx) hcl
        exact ⟨_, .send s ⟨0, hc⟩ jobs[s.next] (List.getElem?_eq_getElem hlt) (by rw [hst']; exact hc) hw⟩
      · subst hc; simp at hlt
    · exact ⟨_, .close s (by have := h.next_le; omega) hcl'⟩

/-- When the caller has returned, every worker is done. -/
theorem returned_done {s : State c σ τ} (h : Inv jobs b L mem0 s) (hr : s.returned = true) :
    ∀ w, s.worker w = .done := by
  have h0 := (h.ret hr).1
  rw [h.wg, Finset.card_eq_zero, Finset.filter_eq_empty_iff] at h0
  intro w
  simpa using h0 (Finset.mem_univ w)

theorem nodup_jobList (n m : ℕ) : (jobList n m).Nodup := by
  unfold jobList
  rw [List.nodup_flatMap]
  constructor
  · intro i _
    exact List.nodup_range.map fun a b h => (Prod.mk.injEq _ _ _ _ ▸ h).2
  · refine List.nodup_range.imp ?_
    intro i j hij x hx hx'
    simp only [List.mem_map, List.mem_range] at hx hx'
    obtain ⟨_, _, rfl⟩ := hx
    obtain ⟨_, _, h⟩ := hx'
    simp at h
    exact hij h.1.symm

theorem mem_jobList (n m : ℕ) (job : Job) : job ∈ jobList n m ↔ job.1 < n ∧ job.2 < m := by
  unfold jobList
  simp only [List.mem_flatMap, List.mem_range, List.mem_map]
  constructor
  · rintro ⟨i, hi, j, hj, rfl⟩; exact ⟨hi, hj⟩
  · rintro ⟨h1, h2⟩; exact ⟨_, h1, _, h2, rfl⟩

/-- The sequential generator: every slot is the result of the body of its job. -/
theorem sequential_spec (hL : ∀ job pc l t, L l → L (b.instr job pc l t).1) (hnd : jobs.Nodup) (l : σ) (hl : L l)
    (mem : Job → τ) :
    L (sequential b l mem jobs).1 ∧
    (∀ job ∈ jobs, ∃ l0, L l0 ∧ (sequential b l mem jobs).2 job = (b.run job l0 (mem job) (b.len job)).2) ∧
    (∀ job, job ∉ jobs → (sequential b l mem jobs).2 job = mem job) := by
  have hrun : ∀ job l t n, L l → L (b.run job l t n).1 := by
    intro job l t n hl
    induction n with
    | zero => exact hl
    | succ n ih => exact hL _ _ _ _ ih
  induction jobs generalizing l mem with
  | nil => exact ⟨hl, by simp, fun _ _ => rfl⟩
  | cons j js ih =>
    rw [List.nodup_cons] at hnd
    obtain ⟨i1, i2, i3⟩ := ih hnd.2 (b.run j l (mem j) (b.len j)).1 (hrun _ _ _ _ hl)
      (Function.update mem j (b.run j l (mem j) (b.len j)).2)
    refine ⟨i1, ?_, ?_⟩
    · intro job hj
      rcases List.mem_cons.1 hj with rfl | hj'
      · refine ⟨l, hl, ?_⟩
        show (sequential b _ _ js).2 job = _
        rw [i3 job hnd.1, Function.update_self]
      · obtain ⟨l0, hl0, h⟩ := i2 job hj'
        refine ⟨l0, hl0, ?_⟩
        show (sequential b _ _ js).2 job = _
        have : job ≠ j := by rintro rfl; exact hnd.1 hj'
        rw [h, Function.update_of_ne this]
    · intro job hj
      rw [List.mem_cons, not_or] at hj
      show (sequential b _ _ js).2 job = _
      rw [i3 job hj.2, Function.update_of_ne hj.1]

end Tfhe.Par
