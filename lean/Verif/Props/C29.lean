import Verif.Lemma.Parallel
import Verif.Props.C17
import Verif.Props.C43

/-!
# C29: parallel key generation

`c` workers, any list of distinct jobs, any bodies, any schedule.  `L` is any property of the local
states that the instructions preserve (for example: all samples still to come are small).
-/
namespace Tfhe.Par
variable {c : ℕ} {σ τ : Type} {jobs : List Job} {b : Body σ τ} {L : σ → Prop} {mem0 : Job → τ}

/-- No two goroutines work on the same slot, in any reachable state. -/
theorem C29_exclusive (hnd : jobs.Nodup) (loc : Fin c → σ) (s : State c σ τ) (h : Reach jobs b loc mem0 s)
    (w w' : Fin c) (job : Job) (pc pc' : ℕ) (hw : s.worker w = .busy job pc) (hw' : s.worker w' = .busy job pc') :
    w = w' :=
  (inv_reach (L := fun _ => True) hnd (fun _ _ _ _ _ => trivial) loc (fun _ => trivial) h).excl w w' job pc pc' hw hw'

/-- **C29.** When the caller returns: all workers are done and the producer has closed the channel; the jobs
that were received are exactly the jobs of the producer, each once; every slot holds the result of the
complete body of its job, run from the new key and some local state with property `L`; nothing else was
written. -/
theorem C29_returned (hnd : jobs.Nodup) (hc : 0 < c ∨ jobs = [])
    (hL : ∀ job pc l t, L l → L (b.instr job pc l t).1) (loc : Fin c → σ) (hloc : ∀ w, L (loc w)) (s : State c σ τ)
    (h : Reach jobs b loc mem0 s) (hr : s.returned = true) :
    (∀ w, s.worker w = .done) ∧ s.hist.map Prod.snd = jobs ∧
    (∀ job ∈ jobs, ∃ l0, L l0 ∧ s.mem job = (b.run job l0 (mem0 job) (b.len job)).2) ∧
    (∀ job, job ∉ jobs → s.mem job = mem0 job) := by
  have hi := inv_reach hnd hL loc hloc h
  have hd := returned_done hi hr
  have hnext : s.next = jobs.length := by
    rcases hc with hc | hc
    · exact hi.closed (hi.done ⟨0, hc⟩ (hd _))
    · have := hi.next_le; subst hc; simpa using this
  have htake : jobs.take s.next = jobs := by rw [hnext, List.take_length]
  refine ⟨hd, by rw [hi.hist, htake], ?_, ?_⟩
  · intro job hj
    rcases hi.fin job (by rwa [htake]) with ⟨w, pc, hw⟩ | hx
    · rw [hd w] at hw; simp at hw
    · exact hx
  · intro job hj
    exact hi.fresh job (by rwa [htake])

/-- No deadlock: in every reachable state where the caller has not returned or the producer has not
finished, some goroutine can act. -/
theorem C29_no_deadlock (hnd : jobs.Nodup) (hc : 0 < c ∨ jobs = []) (loc : Fin c → σ) (s : State c σ τ)
    (h : Reach jobs b loc mem0 s) (hr : s.returned = false ∨ s.closed = false) : ∃ s', Step jobs b s s' :=
  progress (inv_reach (L := fun _ => True) hnd (fun _ _ _ _ _ => trivial) loc (fun _ => trivial) h) hc hr

/-- Termination: there is no infinite execution, under any schedule, from any state. -/
theorem C29_terminates (f : ℕ → State c σ τ) : ¬ ∀ i, Step jobs b (f i) (f (i + 1)) := by
  intro h
  have : ∀ i, measure jobs b (f i) + i ≤ measure jobs b (f 0) := by
    intro i
    induction i with
    | zero => simp
    | succ i ih => have := measure_step (h i); omega
  have := this (measure jobs b (f 0) + 1)
  omega

/-- Every execution can be continued until the caller returns and the producer is finished (and, by
`C29_terminates`, every execution that is continued as long as possible gets there). -/
theorem C29_completes (hnd : jobs.Nodup) (hc : 0 < c ∨ jobs = []) (loc : Fin c → σ) (s : State c σ τ)
    (h : Reach jobs b loc mem0 s) :
    ∃ s', Relation.ReflTransGen (Step jobs b) s s' ∧ s'.returned = true ∧ s'.closed = true := by
  induction hm : measure jobs b s using Nat.strong_induction_on generalizing s with
  | _ n ih =>
    by_cases hf : s.returned = true ∧ s.closed = true
    · exact ⟨s, .refl, hf⟩
    · obtain ⟨s', hs⟩ := C29_no_deadlock hnd hc loc s h (by
        by_cases h1 : s.returned = true
        · exact Or.inr (by simpa using fun h2 => hf ⟨h1, h2⟩)
        · exact Or.inl (by simpa using h1))
      obtain ⟨s'', h1, h2⟩ := ih _ (hm ▸ measure_step hs) s' (h.tail hs) rfl
      exact ⟨s'', .head hs h1, h2⟩

/-- A state without any step is the finished one: nobody is left blocked. -/
theorem C29_stuck_is_finished (hnd : jobs.Nodup) (hc : 0 < c ∨ jobs = []) (loc : Fin c → σ) (s : State c σ τ)
    (h : Reach jobs b loc mem0 s) (hs : ∀ s', ¬ Step jobs b s s') : s.returned = true ∧ s.closed = true := by
  by_contra hf
  obtain ⟨s', h'⟩ := C29_no_deadlock hnd hc loc s h (by
    by_cases h1 : s.returned = true
    · exact Or.inr (by simpa using fun h2 => hf ⟨h1, h2⟩)
    · exact Or.inl (by simpa using h1))
  exact hs s' h'

/-- The counter of the wait group is never decremented below zero (which would panic), and a value is
never sent on a closed channel. -/
theorem C29_no_panic (hnd : jobs.Nodup) (loc : Fin c → σ) (s : State c σ τ) (h : Reach jobs b loc mem0 s) :
    (∀ w, s.worker w = .recv → 0 < s.wg) ∧ (s.closed = true → jobs[s.next]? = none) := by
  have hi := inv_reach (L := fun _ => True) hnd (fun _ _ _ _ _ => trivial) loc (fun _ => trivial) h
  constructor
  · intro w hw
    rw [hi.wg, Finset.card_pos]
    exact ⟨w, by simp [hw]⟩
  · intro hcl
    rw [hi.closed hcl]; simp

/-- The number of workers: at least one when there is work, never more than the work. -/
theorem C29_chunkCount (numCPU : ℕ) (hcpu : 0 < numCPU) (n m : ℕ) (hnm : n * m < 2 ^ 63) :
    ∃ c, chunkCount numCPU ((n * m : ℕ) : ℤ) = some c ∧ c ≤ n * m ∧ (0 < c ∨ jobList n m = []) := by
  obtain ⟨h1, h2⟩ := C43_sqrt ((n * m : ℕ) : ℤ) (by have : ((n * m : ℕ) : ℤ) < 2 ^ 63 := by exact_mod_cast hnm
                                                    omega)
  rcases hs : sqrt ((n * m : ℕ) : ℤ) with _ | r
  · exact absurd (h1.1 hs) (by omega)
  · obtain ⟨a1, a2⟩ := h2 r hs
    have a1' : r * r ≤ n * m := by exact_mod_cast a1
    have a2' : n * m < (r + 1) * (r + 1) := by exact_mod_cast a2
    refine ⟨min numCPU r, by unfold chunkCount; rw [hs]; rfl, ?_, ?_⟩
    · rcases Nat.eq_zero_or_pos r with rfl | hr
      · simp
      · have := Nat.le_mul_of_pos_left r hr
        omega
    · rcases Nat.eq_zero_or_pos r with rfl | hr
      · right
        have hz : n * m = 0 := by omega
        rcases Nat.mul_eq_zero.1 hz with rfl | rfl
        · rfl
        · simp [jobList]
      · left; omega

/-! ## The keys that come out -/

theorem kskBody_run {w n : ℕ} (g : GadgetParams w) (sk : Fin n → BitVec w) (skIn : ℕ → BitVec w) (job : Job)
    (l : KskLoc w n) (t : Fin (n + 1) → BitVec w) :
    ((kskBody g sk skIn).run job l t 4).2 =
      encryptLWEBody sk (l.uniform l.pos) (l.gauss l.pos) (skIn job.1 <<< g.logBaseQ job.2) := by
  simp only [Body.run, kskBody, encryptLWEBody]
  funext i
  refine Fin.cases ?_ (fun i => ?_) i
  · simp
  · simp

/-- **C29 (key-switching key).** Whatever the schedule, `GenDefaultKeySwitchKeyParallel` returns a key that
the sequential generator can return: the same function of mask and noise samples.  `S` is any property that
all samples have. -/
theorem C29_ksk {w n nIn : ℕ} (g : GadgetParams w) (sk : Fin n → BitVec w) (skIn : ℕ → BitVec w)
    (numCPU : ℕ) (hcpu : 0 < numCPU) (hwork : nIn * g.level < 2 ^ 63)
    (S : (Fin n → BitVec w) → BitVec w → Prop) :
    ∃ c, chunkCount numCPU ((nIn * g.level : ℕ) : ℤ) = some c ∧
    ∀ (loc : Fin c → KskLoc w n), (∀ v t, S ((loc v).uniform t) ((loc v).gauss t)) →
    ∀ (mem0 : Job → Fin (n + 1) → BitVec w) (s : State c (KskLoc w n) (Fin (n + 1) → BitVec w)),
      Reach (jobList nIn g.level) (kskBody g sk skIn) loc mem0 s → s.returned = true →
      ∃ (mask : Fin nIn → ℕ → Fin n → BitVec w) (noise : Fin nIn → ℕ → BitVec w),
        (∀ i j, j < g.level → S (mask i j) (noise i j)) ∧
        ∀ (i : Fin nIn) j, j < g.level → s.mem (i, j) = genLWEKeySwitchKey g sk mask noise (fun i => skIn i) i j := by
  obtain ⟨c, hc1, -, hc2⟩ := C29_chunkCount numCPU hcpu nIn g.level hwork
  refine ⟨c, hc1, fun loc hloc mem0 s hs hr => ?_⟩
  obtain ⟨-, -, h3, -⟩ := C29_returned (L := fun l => ∀ t, S (l.uniform t) (l.gauss t)) (nodup_jobList _ _) hc2
    (by
      intro job pc l t hl
      simp only [kskBody]
      split <;> exact hl) loc hloc s hs hr
  have h4 : ∀ (i : Fin nIn) (j : ℕ), ∃ x : (Fin n → BitVec w) × BitVec w, j < g.level → S x.1 x.2 ∧
      s.mem (i, j) = encryptLWEBody sk x.1 x.2 (skIn i <<< g.logBaseQ j) := by
    intro i j
    by_cases hj : j < g.level
    · obtain ⟨l0, hl0, h⟩ := h3 (i, j) ((mem_jobList _ _ _).2 ⟨i.2, hj⟩)
      exact ⟨(l0.uniform l0.pos, l0.gauss l0.pos), fun _ => ⟨hl0 _, h.trans (kskBody_run g sk skIn _ l0 _)⟩⟩
    · exact ⟨(fun _ => 0, 0), fun h => absurd h hj⟩
  choose x hx using h4
  exact ⟨fun i j => (x i j).1, fun i j => (x i j).2, fun i j hj => (hx i j hj).1, fun i j hj => (hx i j hj).2⟩

/-- Running a job of the blind rotation key up to the end of level `q - 1`. -/
theorem brkBody_run {P : Type} [CommRing P] {k : ℕ} (level : ℕ) (baseQ : ℕ → P) (sk : Fin k → P) (ptOf : Job → P)
    (job : Job) (l : BrkLoc P k) (t : ℕ → Fin (k + 1) → P) (q : ℕ) :
    let r := (brkBody level baseQ sk ptOf).run job l t (3 * q + 1)
    r.1.pt = ptOf job ∧ r.1.uniform = l.uniform ∧ r.1.err = l.err ∧ r.1.gauss = l.gauss ∧ r.1.pos = l.pos + q ∧
    r.2 = fun x => if x < q then encryptGLWEBody sk (l.uniform (l.pos + x)) (l.err (l.pos + x)) (l.gauss (l.pos + x))
      (baseQ x * ptOf job) else t x := by
  induction q with
  | zero => simp [Body.run, brkBody]
  | succ q ih =>
    simp only at ih ⊢
    obtain ⟨i1, i2, i3, i4, i5, i6⟩ := ih
    have e0 : ∀ s' t', (brkBody level baseQ sk ptOf).instr job (3 * q + 1) s' t' =
        ({ s' with ct := Function.update s'.ct 0 (baseQ q * s'.pt) }, t') := by
      intro s' t'
      simp only [brkBody, show 3 * q % 3 = 0 by omega, show 3 * q / 3 = q by omega]
    have e1 : ∀ s' t', (brkBody level baseQ sk ptOf).instr job (3 * q + 1 + 1) s' t' =
        ({ s' with ct := encryptGLWEBody sk (s'.uniform s'.pos) (s'.err s'.pos) (s'.gauss s'.pos) (s'.ct 0),
                   pos := s'.pos + 1 }, t') := by
      intro s' t'
      simp only [brkBody, show (3 * q + 1) % 3 = 1 by omega]
    have e2 : ∀ s' t', (brkBody level baseQ sk ptOf).instr job (3 * q + 1 + 1 + 1) s' t' =
        (s', Function.update t' q s'.ct) := by
      intro s' t'
      simp only [brkBody, show (3 * q + 1 + 1) % 3 = 2 by omega, show (3 * q + 1 + 1) / 3 = q by omega]
    rw [show 3 * (q + 1) + 1 = 3 * q + 1 + 1 + 1 + 1 by ring]
    rw [Body.run, Body.run, Body.run, e2, e1, e0]
    simp only [i1, i2, i3, i4, i5, i6]
    refine ⟨trivial, trivial, trivial, trivial, by omega, ?_⟩
    funext x
    by_cases hx : x = q
    · subst hx; simp
    · rw [Function.update_of_ne hx]
      by_cases hlt : x < q
      · rw [if_pos hlt, if_pos (by omega)]
      · rw [if_neg hlt, if_neg (by omega)]

/-- **C29 (blind rotation key).** Whatever the schedule, `GenBlindRotateKeyParallel` returns a key that the
sequential generator can return; `S` is any property that all samples have. -/
theorem C29_brk {w N k n : ℕ} [NeZero N] (g : GadgetParams w) (sk : Fin k → Poly N (BitVec w)) (lwe : ℕ → BitVec w)
    (numCPU : ℕ) (hcpu : 0 < numCPU) (hwork : n * (k + 1) < 2 ^ 63)
    (S : (Fin k → Poly N (BitVec w)) → (Fin k → Poly N (BitVec w)) → Poly N (BitVec w) → Prop) :
    ∃ c, chunkCount numCPU ((n * (k + 1) : ℕ) : ℤ) = some c ∧
    ∀ (loc : Fin c → BrkLoc (Poly N (BitVec w)) k),
      (∀ v t, S ((loc v).uniform t) ((loc v).err t) ((loc v).gauss t)) →
    ∀ (mem0 : Job → ℕ → Fin (k + 1) → Poly N (BitVec w)) (s : State c _ _),
      Reach (jobList n (k + 1)) (brkBody g.level (fun j => Poly.C N (g.baseQ j)) sk (brkPlain sk lwe)) loc mem0 s →
      s.returned = true →
      ∃ (mask err : ℕ → Fin (k + 1) → ℕ → Fin k → Poly N (BitVec w)) (noise : ℕ → Fin (k + 1) → ℕ → Poly N (BitVec w)),
        (∀ i, i < n → ∀ (j : Fin (k + 1)) l, l < g.level → S (mask i j l) (err i j l) (noise i j l)) ∧
        ∀ i, i < n → ∀ (j : Fin (k + 1)) l, l < g.level →
          s.mem (i, j) l = genBlindRotateKeyElem g sk (mask i) (err i) (noise i) (lwe i) j l := by
  obtain ⟨c, hc1, -, hc2⟩ := C29_chunkCount numCPU hcpu n (k + 1) hwork
  refine ⟨c, hc1, fun loc hloc mem0 s hs hr => ?_⟩
  obtain ⟨-, -, h3, -⟩ := C29_returned (L := fun l => ∀ t, S (l.uniform t) (l.err t) (l.gauss t)) (nodup_jobList _ _) hc2
    (by
      intro job pc l t hl
      simp only [brkBody]
      split
      · exact hl
      · split <;> exact hl) loc hloc s hs hr
  have h4 : ∀ (i : ℕ) (j : Fin (k + 1)), ∃ l0 : BrkLoc (Poly N (BitVec w)) k, i < n →
      (∀ t, S (l0.uniform t) (l0.err t) (l0.gauss t)) ∧
      ∀ l, l < g.level → s.mem (i, j) l = encryptGLWEBody sk (l0.uniform (l0.pos + l)) (l0.err (l0.pos + l))
        (l0.gauss (l0.pos + l)) (Poly.C N (g.baseQ l) * brkPlain sk lwe (i, j)) := by
    intro i j
    by_cases hi : i < n
    · obtain ⟨l0, hl0, h⟩ := h3 (i, j) ((mem_jobList _ _ _).2 ⟨hi, j.2⟩)
      refine ⟨l0, fun _ => ⟨hl0, fun l hl => ?_⟩⟩
      have hrun := (brkBody_run g.level (fun j => Poly.C N (g.baseQ j)) sk (brkPlain sk lwe) (i, (j : ℕ)) l0
        (mem0 (i, j)) g.level).2.2.2.2.2
      rw [h]
      show ((brkBody g.level _ sk (brkPlain sk lwe)).run (i, (j : ℕ)) l0 (mem0 (i, j)) (3 * g.level + 1)).2 l = _
      rw [hrun]; exact if_pos hl
    · exact ⟨⟨0, 0, 0, 0, 0, 0⟩, fun h => absurd h hi⟩
  choose x hx using h4
  refine ⟨fun i j l => (x i j).uniform ((x i j).pos + l), fun i j l => (x i j).err ((x i j).pos + l),
    fun i j l => (x i j).gauss ((x i j).pos + l), fun i hi j l hl => (hx i j hi).1 _, fun i hi j l hl => ?_⟩
  rw [(hx i j hi).2 l hl]
  unfold genBlindRotateKeyElem encryptGLevPoly
  refine Fin.cases ?_ (fun j => ?_) j
  · simp [brkPlain]
  · simp [brkPlain]

/-- The key made in parallel is a blind rotation key in the sense used by C17-C21: bootstrapping with it is
correct, whatever the schedule. -/
theorem C29_brk_valid {w N k n : ℕ} [NeZero N] (g : GadgetParams w) (sk : Fin k → Poly N (BitVec w)) (key : ℕ → Bool)
    (numCPU : ℕ) (hcpu : 0 < numCPU) (hwork : n * (k + 1) < 2 ^ 63) (B : ℕ) :
    ∃ c, chunkCount numCPU ((n * (k + 1) : ℕ) : ℤ) = some c ∧
    ∀ (loc : Fin c → BrkLoc (Poly N (BitVec w)) k),
      (∀ v t, pabs ((loc v).gauss t - ∑ j, (loc v).err t j) ≤ B) →
    ∀ (mem0 : Job → ℕ → Fin (k + 1) → Poly N (BitVec w)) (s : State c _ _),
      Reach (jobList n (k + 1)) (brkBody g.level (fun j => Poly.C N (g.baseQ j)) sk
        (brkPlain sk fun i => kbit w (key i))) loc mem0 s →
      s.returned = true → IsBRK (polyGadget N g) sk n B key (fun i j => s.mem (i, j)) := by
  obtain ⟨c, hc, h⟩ := C29_brk (n := n) g sk (fun i => kbit w (key i)) numCPU hcpu hwork
    (fun _ err noise => pabs (noise - ∑ j, err j) ≤ B)
  refine ⟨c, hc, fun loc hloc mem0 s hs hr => ?_⟩
  obtain ⟨mask, err, noise, h1, h2⟩ := h loc hloc mem0 s hs hr
  intro i hi
  obtain ⟨g1, g2⟩ := isGSW_blindRotateKey g sk (mask i) (err i) (noise i) (kbit w (key i))
  refine ⟨fun j l => noise i j l - ∑ t, err i j l t, ⟨fun l hl => ?_, fun q l hl => ?_⟩, fun j l hl => h1 i hi j l hl⟩
  · exact (congrArg (phase sk) (h2 i hi 0 l hl)).trans (g1 l hl)
  · exact (congrArg (phase sk) (h2 i hi q.succ l hl)).trans (g2 q l hl)

/-- The sequential generators: the same conclusion about the slots, from the same bodies. -/
theorem C29_sequential (hnd : jobs.Nodup) (hL : ∀ job pc l t, L l → L (b.instr job pc l t).1) (l : σ) (hl : L l) :
    (∀ job ∈ jobs, ∃ l0, L l0 ∧ (sequential b l mem0 jobs).2 job = (b.run job l0 (mem0 job) (b.len job)).2) ∧
    (∀ job, job ∉ jobs → (sequential b l mem0 jobs).2 job = mem0 job) :=
  (sequential_spec hL hnd l hl mem0).2

/-- Not vacuous: for every number of workers and every local state there is an execution in which the
caller returns. -/
example {w n nIn : ℕ} (g : GadgetParams w) (sk : Fin n → BitVec w) (skIn : ℕ → BitVec w) (loc : Fin (c + 1) → KskLoc w n)
    (mem0 : Job → Fin (n + 1) → BitVec w) :
    ∃ s, Reach (jobList nIn g.level) (kskBody g sk skIn) loc mem0 s ∧ s.returned = true := by
  obtain ⟨s, h1, h2, -⟩ := C29_completes (nodup_jobList nIn g.level) (Or.inl (Nat.succ_pos c)) loc
    (init loc mem0) .refl
  exact ⟨s, h1, h2⟩

/-- 4 CPUs and 500 * 3 slots: 4 workers; 16 CPUs and 2 * 2 slots: 2 workers. -/
example : chunkCount 4 1500 = some 4 ∧ chunkCount 16 4 = some 2 ∧ (jobList 2 3).length = 6 := by decide +kernel

end Tfhe.Par
