import Verif.Lemma.Fork
import Verif.Props.C34Boot

/-!
# C30: parallel multi-key blind rotation

For every schedule, every set of known parties, every ciphertext, table, key and buffer content.
-/
namespace Tfhe.Mk
open Tfhe.Fork Finset
variable {w N : ℕ} [NeZero N]
local notation "Pol" => Poly N (BitVec w)

theorem foldl_congr_mem {α β : Type*} (f g : β → α → β) (l : List α) (b : β) (h : ∀ b, ∀ a ∈ l, f b a = g b a) :
    l.foldl f b = l.foldl g b := by
  induction l generalizing b with
  | nil => rfl
  | cons x l ih =>
    simp only [List.foldl_cons]
    rw [h b x (by simp), ih _ fun b a ha => h b a (by simp [ha])]

/-- The blind rotation of a table of the size of the ring reads the `n + 1` elements of the ciphertext and nothing of the old
contents of the buffers. -/
theorem blindRotate_congr {k : ℕ} (G : Gadget Pol) (bs bc : ℕ) (hbs : 0 < bs) (hbc : 0 < bc)
    (brk : ℕ → Fin (k + 1) → ℕ → Fin (k + 1) → Pol) (err : ℕ → ℕ → Fin (k + 1) → Pol) (old old' : ℕ → Pol)
    (ct ct' : ℕ → BitVec w) (lut lut' : ℕ → Pol) (hct : ∀ t ≤ bs * bc, ct t = ct' t) (hlut : lut 0 = lut' 0) :
    blindRotate G 1 bs bc brk err old ct lut = blindRotate G 1 bs bc brk err old' ct' lut' := by
  have hn : 1 ≤ bs * bc := Nat.mul_pos hbs hbc
  unfold blindRotate
  rw [if_neg (lt_irrefl _), if_neg (lt_irrefl _), hlut]
  split
  · unfold blindRotateBlock
    simp only [hct 0 (Nat.zero_le _), hct 1 hn]
    have hle : ∀ i < bc, ∀ j < bs, i * bs + j + 1 ≤ bs * bc := by
      intro i hi j hj
      calc i * bs + j + 1 ≤ i * bs + bs := by omega
        _ = (i + 1) * bs := by ring
        _ ≤ bc * bs := Nat.mul_le_mul_right _ hi
        _ = bs * bc := Nat.mul_comm _ _
    have h1 : ∀ (fa : Fin (k + 1) → Pol) (pr : ℕ → Fin (k + 1) → Pol), (List.range' 1 (bs - 1)).foldl (fun fa j =>
        ctMulAdd fa (monoSubOne N w (-(modSwitch w N (ct (j + 1)) : ℤ))) (pr j)) fa =
        (List.range' 1 (bs - 1)).foldl (fun fa j =>
        ctMulAdd fa (monoSubOne N w (-(modSwitch w N (ct' (j + 1)) : ℤ))) (pr j)) fa := by
      intro fa pr
      apply foldl_congr_mem
      intro fa j hj
      rw [List.mem_range'_1] at hj
      rw [hct (j + 1) (by have := hle 0 hbc j (by omega); omega)]
    rw [h1]
    apply foldl_congr_mem
    intro acc i hi
    rw [List.mem_range'_1] at hi
    rw [hct (i * bs + 1) (hle i (by omega) 0 hbs)]
    refine congrArg (fun fa => invFFTAdd acc fa (err i 0)) ?_
    apply foldl_congr_mem
    intro fa j hj
    rw [List.mem_range'_1] at hj
    rw [hct (j + 1) (by have := hle i (by omega) (j - i * bs) (by omega); omega)]
  · unfold blindRotateOriginal
    simp only [hct 0 (Nat.zero_le _), hct 1 hn]
    apply foldl_congr_mem
    intro acc i hi
    rw [List.mem_range'_1] at hi
    rw [hct (i + 1) (by omega)]

/-- The external product reads the levels of the gadget only. -/
theorem externalProdTo_congr (P : ℕ) (keys : ℕ → Option (EvalKey Pol)) (i : ℕ) (G Gr : Gadget Pol) (hL : 0 < G.level)
    (lev lev' : ℕ → Fin 2 → Pol) (h : ∀ j < G.level, lev j = lev' j) (bufT : ℕ → Fin 2 → Pol) (bufR buf : ℕ → Pol)
    (errT : ℕ → Fin 2 → Pol) (errSub : Pol) (err : ℕ → Pol) (ct out : ℕ) (m : Mem Pol) :
    externalProdTo P keys i G Gr lev bufT bufR buf errT errSub err ct out m =
      externalProdTo P keys i G Gr lev' bufT bufR buf errT errSub err ct out m := by
  have hg : ∀ (x : Pol) (e : Fin 2 → Pol), gadgetProdGLWE G lev x e = gadgetProdGLWE G lev' x e := by
    intro x e
    unfold gadgetProdGLWE gadgetProd
    rw [h 0 hL]
    rw [foldl_congr_mem (fun acc j => ctMulAdd acc (G.dec x j) (lev j)) (fun acc j => ctMulAdd acc (G.dec x j) (lev' j))]
    intro acc j hj
    rw [List.mem_range'_1] at hj
    rw [h j (by omega)]
  unfold externalProdTo relinLoop
  simp only [hg]

/-! ### The footprints -/

omit [NeZero N] in
theorem setBody_sound (i : ℕ) : (setBody i : Instr (Val w N)).Sound where
  frame m a ha := Function.update_of_ne ha _ _
  dep m m' h a ha := by
    obtain rfl : a = _ := ha
    simp [setBody]

omit [NeZero N] in
theorem copyMask_sound (n i t : ℕ) : (copyMask n i t : Instr (Val w N)).Sound where
  frame m a ha := Function.update_of_ne ha _ _
  dep m m' h a ha := by
    obtain rfl : a = _ := ha
    have := h _ (Set.mem_singleton _)
    simp only [copyMask, Function.update_self]
    exact this

theorem rotateInstr_sound (G : Gadget Pol) (bs bc i j : ℕ) (brk : ℕ → Fin 2 → ℕ → Fin 2 → Pol)
    (err : (Fin (bs * bc + 1) → BitVec w) → ℕ → ℕ → Fin 2 → Pol)
    (scratch : (Fin (bs * bc + 1) → BitVec w) → Pol → (ℕ → Pol) → ℕ → Pol) :
    (rotateInstr G bs bc i j brk err scratch).Sound where
  frame m a ha := by
    simp only [rotateInstr, Set.mem_ofPred_eq, not_or, not_exists] at ha ⊢
    obtain ⟨h1, h2⟩ := ha
    cases a <;> simp only
    case acc i' c =>
      rw [if_neg]; rintro rfl; exact h1 c rfl
    case sub i' =>
      rw [if_neg]; rintro rfl; exact h2 rfl
  dep m m' h a ha := by
    have hin : (fun t : Fin (bs * bc + 1) => rotInOf m i t) = fun t : Fin (bs * bc + 1) => rotInOf m' i t := by
      funext t
      exact h (.rotIn i t) (Or.inl ⟨t, by omega, rfl⟩)
    have hga : m (.gadget j) = m' (.gadget j) := h _ (Or.inr (Or.inl rfl))
    have hsu : m (.sub i) = m' (.sub i) := h _ (Or.inr (Or.inr rfl))
    simp only [rotateInstr] at ha ⊢
    rcases ha with ⟨c, rfl⟩ | rfl
    · simp only [if_true]; rw [hin, hga, hsu]
    · simp only [if_true]; rw [hin, hga, hsu]

omit [NeZero N] in
theorem toFFT_sound (i j : ℕ) : (toFFT i j : Instr (Val w N)).Sound where
  frame m a ha := by
    simp only [toFFT, Set.mem_ofPred_eq, not_exists] at ha ⊢
    cases a <;> simp only
    case fftAcc i' j' c =>
      rw [if_neg]; rintro ⟨rfl, rfl⟩; exact ha c rfl
  dep m m' h a ha := by
    obtain ⟨c, rfl⟩ := ha
    have := h (.acc i c) ⟨c, rfl⟩
    simp only [toFFT, and_self, if_true]
    exact this

/-- The memory that belongs to party `i`. -/
def Region (i : ℕ) : Set Addr :=
  {a | (∃ t, a = .rotIn i t) ∨ (∃ c, a = .acc i c) ∨ (∃ j c, a = .fftAcc i j c) ∨ a = .sub i}
/-- Memory that nobody writes while goroutines run. -/
def Shared : Set Addr := {a | (∃ t, a = .ct t) ∨ ∃ j, a = .gadget j}

theorem region_disjoint {i j : ℕ} (h : i ≠ j) (a : Addr) (hi : a ∈ Region i) (hj : a ∈ Region j) : False := by
  rcases hi with ⟨t, rfl⟩ | ⟨c, rfl⟩ | ⟨l, c, rfl⟩ | rfl <;>
    rcases hj with ⟨t', h'⟩ | ⟨c', h'⟩ | ⟨l', c', h'⟩ | h' <;> simp at h' <;> tauto

theorem shared_not_region (i : ℕ) (a : Addr) (hs : a ∈ Shared) (hi : a ∈ Region i) : False := by
  rcases hi with ⟨t, rfl⟩ | ⟨c, rfl⟩ | ⟨l, c, rfl⟩ | rfl <;>
    rcases hs with ⟨t', h'⟩ | ⟨c', h'⟩ <;> simp at h'

variable (x : ParArgs w N)

/-- Every instruction of goroutine `i` writes only memory of party `i`, and reads only that and shared memory. -/
theorem C30_footprint (L i : ℕ) (I : Instr (Val w N)) (hI : I ∈ x.party L i) :
    I.Sound ∧ I.writes ⊆ Region i ∧ I.reads ⊆ Region i ∪ Shared := by
  simp only [ParArgs.party, partyProg, List.mem_cons, List.mem_append, List.mem_map, List.mem_flatMap, List.mem_range,
    List.not_mem_nil, or_false] at hI
  rcases hI with rfl | ⟨t, -, rfl⟩ | ⟨j, -, rfl | rfl⟩
  · refine ⟨setBody_sound i, ?_, ?_⟩
    · rintro a rfl; exact Or.inl ⟨0, rfl⟩
    · rintro a ha; exact absurd ha (Set.notMem_empty a)
  · refine ⟨copyMask_sound _ i t, ?_, ?_⟩
    · rintro a rfl; exact Or.inl ⟨_, rfl⟩
    · rintro a rfl; exact Or.inr (Or.inl ⟨_, rfl⟩)
  · refine ⟨rotateInstr_sound _ _ _ _ _ _ _ _, ?_, ?_⟩
    · rintro a (⟨c, rfl⟩ | rfl)
      · exact Or.inr (Or.inl ⟨c, rfl⟩)
      · exact Or.inr (Or.inr (Or.inr rfl))
    · rintro a (⟨t, -, rfl⟩ | rfl | rfl)
      · exact Or.inl (Or.inl ⟨t, rfl⟩)
      · exact Or.inr (Or.inr ⟨j, rfl⟩)
      · exact Or.inl (Or.inr (Or.inr (Or.inr rfl)))
  · refine ⟨toFFT_sound _ _, ?_, ?_⟩
    · rintro a ⟨c, rfl⟩; exact Or.inr (Or.inr (Or.inl ⟨j, c, rfl⟩))
    · rintro a ⟨c, rfl⟩; exact Or.inl (Or.inr (Or.inl ⟨c, rfl⟩))

theorem program_indep : x.program.Indep where
  sound i I hI := (C30_footprint x x.gacc.level i I hI).1
  disj i j hij I hI J hJ := by
    obtain ⟨-, wI, rI⟩ := C30_footprint x x.gacc.level i I hI
    obtain ⟨-, wJ, rJ⟩ := C30_footprint x x.gacc.level j J hJ
    rintro (⟨a, ha, hb | hb⟩ | ⟨a, ha, hb | hb⟩)
    · rcases rJ hb with h | h
      · exact region_disjoint hij a (wI ha) h
      · exact shared_not_region i a h (wI ha)
    · exact region_disjoint hij a (wI ha) (wJ hb)
    · rcases rI hb with h | h
      · exact region_disjoint hij a h (wJ ha)
      · exact shared_not_region j a h (wJ ha)
    · exact region_disjoint hij a (wI hb) (wJ ha)

/-! ### What a goroutine computes -/

omit [NeZero N] in
/-- After the copies. -/
theorem copies_run (n i : ℕ) (m : Store (Val w N)) (k : ℕ) :
    let m' := runAll (setBody i :: (List.range k).map (copyMask n i)) m
    (∀ t ≤ k, m' (.rotIn i t) = rotateIn n i (ctOfMem m) t) ∧ ∀ a, (∀ t, a ≠ .rotIn i t) → m' a = m a := by
  induction k with
  | zero =>
    refine ⟨fun t ht => ?_, fun a ha => ?_⟩
    · obtain rfl : t = 0 := by omega
      show Function.update m (.rotIn i 0) (0 : BitVec w) (.rotIn i 0) = _
      rw [Function.update_self]; rfl
    · exact Function.update_of_ne (ha 0) _ _
  | succ k ih =>
    intro m'
    have hm' : m' = (copyMask n i k).run (runAll (setBody i :: (List.range k).map (copyMask n i)) m) := by
      show runAll (setBody i :: (List.range (k + 1)).map (copyMask n i)) m = _
      rw [List.range_succ, List.map_append, ← List.cons_append, runAll_append]; rfl
    obtain ⟨h1, h2⟩ := ih
    rw [hm']
    simp only [copyMask]
    refine ⟨fun t ht => ?_, fun a ha => ?_⟩
    · by_cases htk : t = k + 1
      · subst htk
        rw [Function.update_self, h2 _ (by simp)]
        rfl
      · rw [Function.update_of_ne (by simp [htk])]
        exact h1 t (by omega)
    · rw [Function.update_of_ne (ha _)]; exact h2 a ha

/-- What goroutine `i` leaves in `ctFFTAccs[i]` is what the sequential code puts there. -/
theorem party_run (hbs : 0 < x.bs) (hbc : 0 < x.bc) (i L : ℕ) (m : Store (Val w N)) (old : ℕ → Pol)
    (hg : ∀ j, m (.gadget j) = Poly.C N (x.gacc.baseQ j)) (j : ℕ) (hj : j < L) (c : Fin 2) :
    runAll (x.party L i) m (.fftAcc i j c) =
      accOf x.gacc x.Gbr x.bs x.bc i (x.brk i) (fun j => x.errBR i j fun t => rotateIn (x.bs * x.bc) i (ctOfMem m) t) old
        (ctOfMem m) j c := by
  obtain ⟨c1, c2⟩ := copies_run (x.bs * x.bc) i m (x.bs * x.bc)
  set m1 := runAll (setBody i :: (List.range (x.bs * x.bc)).map (copyMask (x.bs * x.bc) i)) m with hm1
  have hsplit : ∀ k, runAll (x.party k i) m =
      runAll ((List.range k).flatMap fun j => [rotateInstr x.Gbr x.bs x.bc i j (x.brk i) (x.errBR i j) x.scratch, toFFT i j]) m1 := by
    intro k
    rw [hm1, ← runAll_append]; rfl
  rw [hsplit]
  have key : ∀ k ≤ L, let r := runAll ((List.range k).flatMap fun j =>
      [rotateInstr x.Gbr x.bs x.bc i j (x.brk i) (x.errBR i j) x.scratch, toFFT i j]) m1
      (∀ t, r (.rotIn i t) = m1 (.rotIn i t)) ∧ (∀ j, r (.gadget j) = m (.gadget j)) ∧
      ∀ j < k, ∀ c, r (.fftAcc i j c) = accOf x.gacc x.Gbr x.bs x.bc i (x.brk i)
        (fun j => x.errBR i j fun t => rotateIn (x.bs * x.bc) i (ctOfMem m) t) old (ctOfMem m) j c := by
    intro k
    induction k with
    | zero => intro _; exact ⟨fun _ => rfl, fun j => c2 _ (by simp), by simp⟩
    | succ k ih =>
      intro hk r
      obtain ⟨h1, h2, h3⟩ := ih (by omega)
      set q := runAll ((List.range k).flatMap fun j =>
        [rotateInstr x.Gbr x.bs x.bc i j (x.brk i) (x.errBR i j) x.scratch, toFFT i j]) m1 with hq
      have hr : r = (toFFT i k).run ((rotateInstr x.Gbr x.bs x.bc i k (x.brk i) (x.errBR i k) x.scratch).run q) := by
        show runAll ((List.range (k + 1)).flatMap _) m1 = _
        rw [List.range_succ, List.flatMap_append, runAll_append, ← hq]; rfl
      rw [hr]
      refine ⟨fun t => h1 t, fun j => h2 j, fun j hj c => ?_⟩
      simp only [toFFT, rotateInstr, true_and, if_true]
      by_cases hjk : j = k
      · subst hjk
        rw [if_pos rfl]
        have hin : (fun t : Fin (x.bs * x.bc + 1) => rotInOf q i t) = fun t : Fin (x.bs * x.bc + 1) => rotateIn (x.bs * x.bc) i (ctOfMem m) t := by
          funext t
          exact (h1 t).trans (c1 _ (by omega))
        rw [hin]
        unfold accOf
        refine congrFun (blindRotate_congr x.Gbr x.bs x.bc hbs hbc _ _ _ _ _ _ _ _ (fun t ht => ?_) ?_) c
        · simp only [ext0]
          rw [dif_pos (by omega)]
        · rw [h2, hg]; rfl
      · rw [if_neg hjk]; exact h3 j (by omega) c
  exact (key L le_rfl).2.2 j hj c

/-! ### The property -/

/-- No data race: two goroutines never have conflicting instructions to execute, in any state; and while a goroutine runs, the
caller is in its first loop, where it touches no memory. -/
theorem C30_no_race (m0 : Store (Val w N)) (s : State (Val w N))
    (h : Reach x.program m0 s) (i pc : ℕ) (I : Instr (Val w N))
    (h1 : s.thr i = .run pc)
    (h2 : (x.program.prog i)[pc]? = some I) :
    (∀ j pc' J, j ≠ i → s.thr j = .run pc' →
      (x.program.prog j)[pc']? = some J → ¬ Conflict I J) ∧
    ((∃ k, s.main = .spawn k) ∨ ∃ k, s.main = .go k) := by
  have hp := program_indep x
  have hi := finv_reach hp h
  refine ⟨fun j pc' J hj _ h4 => hp.disj i j (Ne.symm hj) I (mem_of_getElem? h2).1 J (mem_of_getElem? h4).1, ?_⟩
  have hon : i < x.program.P := finv_lt hi (by rw [h1]; simp)
  have hon' : x.program.on i = true := by
    by_contra hc
    rw [Bool.not_eq_true] at hc
    have := hi.off i hc
    rw [h1] at this; simp at this
  have hearly : s.main.early = true := by
    by_contra hc
    rw [Bool.not_eq_true] at hc
    have := hi.fin_ok hc i hon' hon
    rw [h1] at this; simp at this
  rcases hm : s.main with pc' | k | k | k | _ | _
  · have := (hi.pre_ok pc' hm).2.2 i
    rw [h1] at this; simp at this
  · exact Or.inl ⟨k, rfl⟩
  · exact Or.inr ⟨k, rfl⟩
  all_goals rw [hm] at hearly; simp [Main.early] at hearly

variable {x}

omit [NeZero N] in
theorem glweOf_setGlwe (m : Store (Val w N)) (g : Mem Pol) : glweOf (setGlwe m g) = g := rfl

/-- The second loop is the loop of the sequential function, if the accumulators are the same. -/
theorem postLoop_eq (hL : 0 < x.gacc.level) (mj : Store (Val w N)) (accs : ℕ → ℕ → Fin 2 → Pol) (n : ℕ)
    (h : ∀ i < n, isOn x.keys i = true → ∀ j < x.gacc.level, ∀ c, mj (.fftAcc i j c) = accs i j c) (g : Mem Pol)
    (hglwe : glweOf mj = g) :
    postLoop x.program n mj =
      ((List.range n).foldlM (fun m i =>
        match x.keys i with
        | none => some m
        | some _ => externalProdTo x.P x.keys i (polyGadget N x.gacc) x.Gr (accs i) (x.xs i).bufT (x.xs i).bufR (x.xs i).buf (x.xs i).errT
            (x.xs i).errSub (x.xs i).err x.out x.out m) g).map (setGlwe mj) := by
  induction n with
  | zero =>
    subst hglwe
    simp only [postLoop, List.range_zero, List.foldlM_nil]
    show some mj = some (setGlwe mj (glweOf mj))
    congr 1
    funext a; cases a <;> rfl
  | succ n ih =>
    rw [postLoop_succ, ih fun i hi => h i (by omega), List.range_succ, List.foldlM_append]
    cases hr : (List.range n).foldlM (fun m i =>
        match x.keys i with
        | none => some m
        | some _ => externalProdTo x.P x.keys i (polyGadget N x.gacc) x.Gr (accs i) (x.xs i).bufT (x.xs i).bufR (x.xs i).buf (x.xs i).errT
            (x.xs i).errSub (x.xs i).err x.out x.out m) g with
    | none => rfl
    | some g' =>
      cases hk : x.keys n with
      | none =>
        simp [ParArgs.program, isOn, hk]
      | some k =>
        have hon : isOn x.keys n = true := by simp [isOn, hk]
        simp only [Option.map_some, Option.bind_some, List.foldlM_cons, List.foldlM_nil, ParArgs.program, hon, if_true, postParty]
        rw [glweOf_setGlwe]
        have := externalProdTo_congr x.P x.keys n (polyGadget N x.gacc) x.Gr hL (fun j c => setGlwe mj g' (.fftAcc n j c)) (accs n)
          (fun j hj => by funext c; exact h n (by omega) hon j hj c) (x.xs n).bufT (x.xs n).bufR (x.xs n).buf (x.xs n).errT (x.xs n).errSub (x.xs n).err x.out x.out g'
        rw [this]
        simp only [hk, Option.bind_eq_bind, Option.bind_some]
        generalize externalProdTo x.P x.keys n (polyGadget N x.gacc) x.Gr (accs n) (x.xs n).bufT (x.xs n).bufR (x.xs n).buf
          (x.xs n).errT (x.xs n).errSub (x.xs n).err x.out x.out g' = r
        cases r with
        | none => rfl
        | some g'' =>
          show some _ = some _
          congr 1
          funext a; cases a <;> rfl

/-- The memory when the caller is past `wg.Wait()`, in terms of the sequential function. -/
theorem join_eq (hbs : 0 < x.bs) (hbc : 0 < x.bc) (hL : 0 < x.gacc.level) (m0 : Store (Val w N))
    (hg : ∀ j, m0 (.gadget j) = Poly.C N (x.gacc.baseQ j)) (old : ℕ → ℕ → Pol) {mj : Store (Val w N)}
    (hj : AfterJoin x.program
      (runAll [initInstr x.P x.lut x.out] m0) mj) :
    postLoop x.program x.P mj =
      (x.sequential old (ctOfMem m0) (glweOf m0)).map (setGlwe mj) := by
  have hglwe : glweOf mj = rotateInit x.P (ctOfMem m0) x.lut x.out (glweOf m0) := by
    funext v t
    show mj (.glwe v t) = _
    rw [hj.other]
    · rfl
    · rintro i - - ⟨I, hI, ha⟩
      rcases (C30_footprint x x.gacc.level i I hI).2.1 ha with ⟨t, h⟩ | ⟨c, h⟩ | ⟨l, c, h⟩ | h <;>
        simp at h
  rw [postLoop_eq hL mj (fun i => accOf x.gacc x.Gbr x.bs x.bc i (x.brk i)
    (fun j => x.errBR i j fun t => rotateIn (x.bs * x.bc) i (ctOfMem m0) t) (old i) (ctOfMem m0)) x.P ?_ _ hglwe]
  · rfl
  · intro i hi hon j hjL c
    rw [hj.wr i hi hon (.fftAcc i j c)]
    · exact party_run x hbs hbc i x.gacc.level (runAll [initInstr x.P x.lut x.out] m0) (old i) (fun j => hg j) j hjL c
    · refine ⟨toFFT i j, ?_, c, rfl⟩
      simp only [ParArgs.program, ParArgs.party, partyProg, List.mem_cons, List.mem_append, List.mem_flatMap, List.mem_range]
      exact Or.inr (Or.inr ⟨j, hjL, by simp⟩)

omit x in
theorem blindRotateTo_isSome {P : ℕ} {keys : ℕ → Option (EvalKey Pol)} {gacc : GadgetParams w} {Gbr Gr : Gadget Pol}
    {bs bc : ℕ} {brk : ℕ → ℕ → Fin 2 → ℕ → Fin 2 → Pol} {xs : ℕ → ExtArgs Pol} {lut : ℕ → Pol} {out : ℕ}
    (errBR : ℕ → ℕ → ℕ → ℕ → Fin 2 → Pol) (old : ℕ → ℕ → Pol) (ct : ℕ → BitVec w) (m : Mem Pol) :
    (blindRotateTo P keys gacc Gbr Gr bs bc brk errBR old xs ct lut out m).isSome := by
  unfold blindRotateTo
  have : ∀ (l : List ℕ), (∀ i ∈ l, i < P) → ∀ m : Mem Pol, (l.foldlM (fun m i =>
      match keys i with
      | none => some m
      | some _ => externalProdTo P keys i (polyGadget N gacc) Gr
        (accOf gacc Gbr bs bc i (brk i) (errBR i) (old i) ct) (xs i).bufT (xs i).bufR (xs i).buf (xs i).errT (xs i).errSub
        (xs i).err out out m) m).isSome := by
    intro l
    induction l with
    | nil => intro _ m; rfl
    | cons i l ih =>
      intro hl m
      rw [List.foldlM_cons]
      have hl' : ∀ i ∈ l, i < P := fun i hi => hl i (by simp [hi])
      cases hk : keys i with
      | none => exact ih hl' m
      | some k =>
        simp only [externalProdTo, hk, Option.bind_some, hybridProdTo, hybridAcc, if_neg (not_le.2 (hl i (by simp))),
          Option.map_some]
        exact ih hl' _
  exact this _ (fun i hi => List.mem_range.1 hi) _

/-- The sequential function never panics. -/
theorem C30_sequential_isSome (old : ℕ → ℕ → Pol) (ct : ℕ → BitVec w) (m : Mem Pol) : (x.sequential old ct m).isSome :=
  blindRotateTo_isSome _ _ _ _

/-- **C30.** Whatever the schedule: when `BlindRotateParallelTo` returns, the multi-key ciphertexts in memory are those that
`BlindRotateTo` leaves (the output and all others); all goroutines are done; ciphertext and tables are as before.  The float64
errors of a rotation are a function of its inputs, so they are the same in both. -/
theorem C30_equal (hbs : 0 < x.bs) (hbc : 0 < x.bc) (hL : 0 < x.gacc.level) (m0 : Store (Val w N))
    (hg : ∀ j, m0 (.gadget j) = Poly.C N (x.gacc.baseQ j)) (old : ℕ → ℕ → Pol) (s : State (Val w N))
    (h : Reach x.program m0 s) (hr : s.main = .returned) :
    x.sequential old (ctOfMem m0) (glweOf m0) = some (glweOf s.mem) ∧
    (∀ i, ∀ pc, s.thr i ≠ .run pc) ∧ ∀ a ∈ Shared, s.mem a = m0 a := by
  have hi := finv_reach (program_indep x) h
  obtain ⟨s0, b1, b2, b3⟩ := hi.ret_ok hr
  have hj := afterJoin_of hi (by rw [hr]; rfl) b1 b2
  have heq := join_eq hbs hbc hL m0 hg old hj
  have hP : x.program.P = x.P := rfl
  rw [hP, heq] at b3
  obtain ⟨g, hg1, hg2⟩ := Option.map_eq_some_iff.1 b3
  refine ⟨by rw [hg1, ← hg2, glweOf_setGlwe], ?_, ?_⟩
  · intro i pc hpc
    have hlt := finv_lt hi (i := i) (by rw [hpc]; simp)
    by_cases hon : x.program.on i = true
    · have := hi.fin_ok (by rw [hr]; rfl) i hon hlt
      rw [hpc] at this; simp at this
    · rw [Bool.not_eq_true] at hon
      have := hi.off i hon
      rw [hpc] at this; simp at this
  · intro a ha
    rw [← hg2]
    have : setGlwe s0.mem g a = s0.mem a := by rcases ha with ⟨t, rfl⟩ | ⟨j, rfl⟩ <;> rfl
    rw [this, hj.other]
    · rcases ha with ⟨t, rfl⟩ | ⟨j, rfl⟩ <;> rfl
    · rintro i - - ⟨I, hI, hw⟩
      exact shared_not_region i a ha ((C30_footprint x x.gacc.level i I hI).2.1 hw)

/-- No panic: neither the counter of the wait group nor an index. -/
theorem C30_no_panic (hbs : 0 < x.bs) (hbc : 0 < x.bc) (hL : 0 < x.gacc.level) (m0 : Store (Val w N))
    (hg : ∀ j, m0 (.gadget j) = Poly.C N (x.gacc.baseQ j)) (s : State (Val w N))
    (h : Reach x.program m0 s) : s.main ≠ .panicked := by
  intro hr
  have hi := finv_reach (program_indep x) h
  obtain ⟨s0, b1, b2, b3⟩ := hi.panic_ok hr
  have hj := afterJoin_of hi (by rw [hr]; rfl) b1 b2
  have heq := join_eq hbs hbc hL m0 hg (fun _ _ => 0) hj
  have hP : x.program.P = x.P := rfl
  rw [hP, heq, Option.map_eq_none_iff] at b3
  have := C30_sequential_isSome (x := x) (fun _ _ => 0) (ctOfMem m0) (glweOf m0)
  rw [b3] at this; simp at this

/-- No deadlock: before the function returns, some goroutine can act. -/
theorem C30_no_deadlock (hbs : 0 < x.bs) (hbc : 0 < x.bc) (hL : 0 < x.gacc.level) (m0 : Store (Val w N))
    (hg : ∀ j, m0 (.gadget j) = Poly.C N (x.gacc.baseQ j)) (s : State (Val w N))
    (h : Reach x.program m0 s) (hr : s.main ≠ .returned) :
    ∃ s', Step x.program s s' :=
  fork_progress (finv_reach (program_indep x) h) hr
    (C30_no_panic hbs hbc hL m0 hg s h)

/-- Termination: no schedule runs for ever. -/
theorem C30_terminates (m0 : Store (Val w N)) (f : ℕ → State (Val w N)) (h0 : f 0 = start m0) :
    ¬ ∀ i, Step x.program (f i) (f (i + 1)) := by
  intro h
  have hreach : ∀ i, Reach x.program m0 (f i) := by
    intro i
    induction i with
    | zero => rw [h0]; exact .start
    | succ i ih => exact .step _ _ ih (h i)
  have hle : ∀ i, (f i).left x.program + i ≤
      (f 0).left x.program := by
    intro i
    induction i with
    | zero => simp
    | succ i ih =>
      have := left_step (finv_reach (program_indep x) (hreach i)) (h i)
      omega
  have := hle ((f 0).left x.program + 1)
  omega

/-- Every state can be continued to the end, so every maximal schedule ends with a return. -/
theorem C30_completes (hbs : 0 < x.bs) (hbc : 0 < x.bc) (hL : 0 < x.gacc.level) (m0 : Store (Val w N))
    (hg : ∀ j, m0 (.gadget j) = Poly.C N (x.gacc.baseQ j)) (s : State (Val w N))
    (h : Reach x.program m0 s) :
    ∃ s', Relation.ReflTransGen (Step x.program) s s' ∧
      s'.main = .returned := by
  induction hn : s.left x.program using Nat.strong_induction_on
    generalizing s with
  | _ n ih =>
    by_cases hr : s.main = .returned
    · exact ⟨s, .refl, hr⟩
    · obtain ⟨s', hs'⟩ := C30_no_deadlock hbs hbc hL m0 hg s h hr
      have hlt := left_step (finv_reach (program_indep x) h) hs'
      obtain ⟨s'', a1, a2⟩ := ih _ (hn ▸ hlt) s' (.step _ _ h hs') rfl
      exact ⟨s'', .head hs' a1, a2⟩

/-- `BootstrapLUTParallelTo` computes what `BootstrapLUTTo` computes: `s` is the state when the parallel rotation of the
ciphertext that the order prescribes returns, with the output in the buffer `ctRotate`.  Key switch first.
mktfhe/bootstrap.go:65-68. -/
theorem C30_bootstrap_ksBr (hbs : 0 < x.bs) (hbc : 0 < x.bc) (hL : 0 < x.gacc.level) (ho : x.out = 0)
    (Gks : Gadget (BitVec w)) (ksk : ℕ → Option (ℕ → ℕ → Fin (x.bs * x.bc + 1) → BitVec w)) (old : ℕ → ℕ → Pol)
    (bufKS bufE o ct : ℕ → BitVec w) (m0 : Store (Val w N)) (hg : ∀ j, m0 (.gadget j) = Poly.C N (x.gacc.baseQ j))
    (hin : ctOfMem m0 = defaultKeySwitchTo x.P Gks (x.bs * x.bc) N ksk ct bufKS)
    (s : State (Val w N)) (h : Reach x.program m0 s) (hr : s.main = .returned) :
    bootstrapLUT .ksBr x.P x.keys x.gacc x.Gbr x.Gr Gks x.bs x.bc x.brk ksk
      (fun i j => x.errBR i j fun t => rotateIn (x.bs * x.bc) i (ctOfMem m0) t) old x.xs bufKS bufE (glweOf m0) o ct x.lut =
    some (asLWECiphertext (readCt x.P (glweOf s.mem)) ⟨0, NeZero.pos N⟩ o) := by
  have key := (C30_equal hbs hbc hL m0 hg old s h hr).1
  unfold ParArgs.sequential at key
  rw [ho] at key
  simp only [bootstrapLUT]
  rw [← hin, key]; rfl

/-- Blind rotation first.  mktfhe/bootstrap.go:69-72. -/
theorem C30_bootstrap_brKs (hbs : 0 < x.bs) (hbc : 0 < x.bc) (hL : 0 < x.gacc.level) (ho : x.out = 0)
    (Gks : Gadget (BitVec w)) (ksk : ℕ → Option (ℕ → ℕ → Fin (x.bs * x.bc + 1) → BitVec w)) (old : ℕ → ℕ → Pol)
    (bufKS bufE o : ℕ → BitVec w) (m0 : Store (Val w N)) (hg : ∀ j, m0 (.gadget j) = Poly.C N (x.gacc.baseQ j))
    (s : State (Val w N)) (h : Reach x.program m0 s) (hr : s.main = .returned) :
    bootstrapLUT .brKs x.P x.keys x.gacc x.Gbr x.Gr Gks x.bs x.bc x.brk ksk
      (fun i j => x.errBR i j fun t => rotateIn (x.bs * x.bc) i (ctOfMem m0) t) old x.xs bufKS bufE (glweOf m0) o (ctOfMem m0)
      x.lut =
    some (defaultKeySwitchTo x.P Gks (x.bs * x.bc) N ksk
          (asLWECiphertext (readCt x.P (glweOf s.mem)) ⟨0, NeZero.pos N⟩ bufE) o) := by
  have key := (C30_equal hbs hbc hL m0 hg old s h hr).1
  unfold ParArgs.sequential at key
  rw [ho] at key
  simp only [bootstrapLUT]
  rw [key]; rfl

/-- The arguments of a run with the keys of `exM`: three parties, the second one unknown. -/
def exPar (N : ℕ) [NeZero N] (r : ExRand N) (lut : ℕ → Poly N (BitVec 64)) (xs : ℕ → ExtArgs (Poly N (BitVec 64))) :
    ParArgs 64 N where
  P := 3
  keys := (exM N r).keys
  gacc := exG
  Gbr := polyGadget N exG
  Gr := polyGadget N exG
  bs := 1
  bc := 2
  brk := (exM N r).brk
  errBR _ _ _ _ _ _ := 0
  scratch _ _ old := old
  xs := xs
  lut := lut
  out := 0

/-- With these, some schedule returns, and every schedule that returns leaves the result of the sequential function. -/
example (N : ℕ) [NeZero N] (r : ExRand N) (lut : ℕ → Poly N (BitVec 64)) (xs : ℕ → ExtArgs (Poly N (BitVec 64)))
    (m0 : Store (Val 64 N)) (hg : ∀ j, m0 (.gadget j) = Poly.C N (exG.baseQ j)) :
    (∃ s, Reach (exPar N r lut xs).program m0 s ∧ s.main = .returned) ∧
    ∀ s, Reach (exPar N r lut xs).program m0 s → s.main = .returned →
      (exPar N r lut xs).sequential (fun _ _ => 0) (ctOfMem m0) (glweOf m0) = some (glweOf s.mem) := by
  refine ⟨?_, fun s h hr => (C30_equal (show 0 < 1 by decide) (show 0 < 2 by decide) (show 0 < 8 by decide) m0 hg _ s h hr).1⟩
  obtain ⟨s, h1, h2⟩ := C30_completes (x := exPar N r lut xs) (show 0 < 1 by decide) (show 0 < 2 by decide) (show 0 < 8 by decide) m0 hg _ .start
  refine ⟨s, ?_, h2⟩
  clear h2
  induction h1 with
  | refl => exact .start
  | tail _ hs ih => exact .step _ _ ih hs

/-- Two goroutines are started, and their bodies have 1 + 2 + 2 * 8 instructions. -/
example (N : ℕ) [NeZero N] (r : ExRand N) (lut : ℕ → Poly N (BitVec 64)) (xs : ℕ → ExtArgs (Poly N (BitVec 64))) :
    (List.range 3).map (exPar N r lut xs).program.on = [true, false, true] ∧
    ((exPar N r lut xs).program.prog 2).length = 19 := by
  constructor
  · show (List.range 3).map (fun i => ((if i = 1 then none else some _ : Option _)).isSome) = _
    simp [List.range_succ]
  · rfl
end Tfhe.Mk
