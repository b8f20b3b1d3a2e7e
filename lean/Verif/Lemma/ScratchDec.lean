import Verif.Lemma.Interleave
import Verif.Model.ScratchDec

/-!
# The multi-key decryptor alone
-/
namespace Tfhe.Scratch

variable {w : ℕ} {F : Type}

/-- The words of a slice. -/
def UVec.words (v : UVec) (uw : ℕ → BitVec w) : List (BitVec w) := (List.range v.len).map fun i => uw (v.off + i)

/-- The words of the caller. -/
def Mem.u (m : Mem w F) : ℕ → BitVec w := fun a => m.wd (.user a)

/-- The cells of a slice. -/
def UVec.cells (v : UVec) : Set UCell := {c | ∃ i, i < v.len ∧ c = .w (v.off + i)}

theorem not_mem_cells {v v' : UVec} (h : Disjoint v.cells v'.cells) {i : ℕ} (hi : i < v.len) :
    ¬ (v'.off ≤ v.off + i ∧ v.off + i < v'.off + v'.len) := by
  intro hc
  refine Set.disjoint_left.mp h ⟨i, hi, rfl⟩ ⟨v.off + i - v'.off, by omega, ?_⟩
  congr 1; omega

theorem words_congr {v : UVec} {f f' : ℕ → BitVec w} (h : ∀ i, i < v.len → f (v.off + i) = f' (v.off + i)) :
    v.words f = v.words f' := List.map_congr_left fun i hi => h i (List.mem_range.mp hi)

/-- A loop that changes the elements of a slice one by one. -/
theorem run_loopN_upd (v : UVec) (h : ℕ → BitVec w → BitVec w) {body : ℕ → M w F Unit}
    (hb : ∀ i, i < v.len → ∀ m, body i m = some ((), m.setW (.user (v.off + i)) (h i (m.u (v.off + i))))) :
    ∀ n a, a + n ≤ v.len → ∀ m : Mem w F, ∃ m', loopN body n a m = some ((), m') ∧
      ∀ b, m'.u b = if v.off + a ≤ b ∧ b < v.off + a + n then h (b - v.off) (m.u b) else m.u b
  | 0, a, _, m => ⟨m, rfl, fun b => (if_neg (by omega)).symm⟩
  | n + 1, a, ha, m => by
    obtain ⟨m', e, hm'⟩ := run_loopN_upd v h hb n (a + 1) (by omega) (m.setW (.user (v.off + a)) (h a (m.u (v.off + a))))
    refine ⟨m', ?_, fun b => ?_⟩
    · rw [loopN, run_bind, hb a (by omega), Option.bind_some]
      exact e
    · rw [hm' b]
      by_cases e : b = v.off + a
      · subst e
        rw [if_neg (by omega), if_pos (by omega)]
        simp [Mem.u, Mem.setW]
      · have : (m.setW (.user (v.off + a)) (h a (m.u (v.off + a)))).u b = m.u b := by
          simp [Mem.u, Mem.setW, e]
        rw [this]
        by_cases hb : v.off + a ≤ b ∧ b < v.off + a + (n + 1)
        · rw [if_pos (by omega), if_pos hb]
        · rw [if_neg (by omega), if_neg hb]

theorem run_copyTo {dst src : UVec} (hl : dst.len = src.len) (m : Mem w F) :
    ∃ m', copyTo dst.vec src.vec m = some ((), m') ∧
      ∀ b, m'.u b = if dst.off ≤ b ∧ b < dst.off + dst.len then m.u (src.off + (b - dst.off)) else m.u b := by
  obtain ⟨m', e, hm'⟩ := run_loopN_upd (F := F) dst (fun i _ => m.u (src.off + i))
    (body := fun i => do wr dst.vec i (← elem (src.words m.u) i)) (fun i hi m1 => by
      have : (src.words m.u)[i]? = some (m.u (src.off + i)) := by
        unfold UVec.words
        rw [List.getElem?_map, List.getElem?_range (by omega)]
        rfl
      show (elem (src.words m.u) i >>= fun x => wr dst.vec i x) m1 = _
      rw [elem, this]
      show (wr dst.vec i _) m1 = _
      rw [run_wr]
      exact if_pos hi) dst.len 0 (by omega) m
  refine ⟨m', ?_, hm'⟩
  unfold copyTo
  rw [run_bind, run_rdAll, Option.bind_some]
  dsimp only
  have : min dst.vec.len src.vec.len = dst.len := by
    show min dst.len src.len = _; omega
  rw [this]
  exact e

theorem run_shortMulAdd {d : Decr w} {i : ℕ} {out p : UVec} (ho : out.len = d.N) (hp : p.len = d.N) (m : Mem w F) :
    ∃ m', shortMulAdd d i out.vec p.vec m = some ((), m') ∧
      ∀ b, m'.u b = if out.off ≤ b ∧ b < out.off + out.len then m.u b + d.prod i (p.words m.u) (b - out.off) else m.u b := by
  obtain ⟨m', e, hm'⟩ := run_loopN_upd (F := F) out (fun j x => x + d.prod i (p.words m.u) j)
    (body := fun j => do
      let o ← rd out.vec j
      wr out.vec j (o + d.prod i (p.words m.u) j)) (fun j hj m1 => by
      rw [run_bind, run_rd, if_pos (show j < out.vec.len from hj), Option.bind_some, run_wr]
      exact if_pos hj) out.len 0 (by omega) m
  refine ⟨m', ?_, hm'⟩
  unfold shortMulAdd
  have hc : (out.vec.len == d.N && p.vec.len == d.N) = true := by
    show (out.len == d.N && p.len == d.N) = true
    simp [ho, hp]
  rw [hc]
  show (rdAll p.vec >>= _) m = _
  rw [run_bind, run_rdAll, Option.bind_some]
  rw [ho] at e
  exact e

/-- What the arguments of a decryption have to satisfy: all polynomials have the rank of the decryptor, and
the ciphertext is not in the buffers. -/
structure DecOk (d : Decr w) (out : UVec) (ct : ℕ → UVec) : Prop where
  outL : out.len = d.N
  sub0 : d.sub0.len = d.N
  sub1 : d.sub1.len = d.N
  ctL : ∀ j, j ≤ d.parties.length → (ct j).len = d.N
  subs : Disjoint d.sub0.cells d.sub1.cells
  ct0 : ∀ j, j ≤ d.parties.length → Disjoint (ct j).cells d.sub0.cells
  ct1 : ∀ j, j ≤ d.parties.length → Disjoint (ct j).cells d.sub1.cells

/-- The part of the sum that belongs to the parties from `i` on. -/
def decSum (d : Decr w) (c : ℕ → List (BitVec w)) (j : ℕ) : ℕ → List Bool → BitVec w
  | _, [] => 0
  | i, b :: bs => (if b then d.prod i (c (1 + i)) j else 0) + decSum d c j (i + 1) bs

theorem run_decryptLoop {d : Decr w} {out : UVec} {ct : ℕ → UVec} (h : DecOk d out ct) :
    ∀ (bs : List Bool) (i : ℕ), i + bs.length = d.parties.length → ∀ m : Mem w F, ∃ m', decryptLoop d ct i bs m = some ((), m') ∧
      (∀ j, j ≤ d.parties.length → (ct j).words m'.u = (ct j).words m.u) ∧
      ∀ j, j < d.N → m'.u (d.sub0.off + j) = m.u (d.sub0.off + j) + decSum d (fun j => (ct j).words m.u) j i bs
  | [], i, _, m => ⟨m, rfl, fun _ _ => rfl, fun j _ => by simp [decSum]⟩
  | false :: bs, i, hi, m => by
    obtain ⟨m', e, h1, h2⟩ := run_decryptLoop h bs (i + 1) (by simp at hi; omega) m
    refine ⟨m', e, h1, fun j hj => ?_⟩
    rw [h2 j hj]
    simp [decSum]
  | true :: bs, i, hi, m => by
    have hi' : 1 + i ≤ d.parties.length := by simp at hi; omega
    obtain ⟨m1, e1, u1⟩ := run_copyTo (F := F) (dst := d.sub1) (src := ct (1 + i)) (h.sub1.trans (h.ctL _ hi').symm) m
    obtain ⟨m2, e2, u2⟩ := run_copyTo (F := F) (dst := d.sub0) (src := d.sub0) rfl m1
    obtain ⟨m3, e3, u3⟩ := run_shortMulAdd (F := F) (i := i) h.sub0 h.sub1 m2
    obtain ⟨m', e, h1, h2⟩ := run_decryptLoop h bs (i + 1) (by simp at hi; omega) m3
    have hs0 : ∀ j, j < d.N → ¬ (d.sub1.off ≤ d.sub0.off + j ∧ d.sub0.off + j < d.sub1.off + d.sub1.len) :=
      fun j hj => not_mem_cells h.subs (by rw [h.sub0]; exact hj)
    have hs1 : ∀ j, j < d.N → ¬ (d.sub0.off ≤ d.sub1.off + j ∧ d.sub1.off + j < d.sub0.off + d.sub0.len) :=
      fun j hj => not_mem_cells h.subs.symm (by rw [h.sub1]; exact hj)
    have hct : ∀ j, j ≤ d.parties.length → (ct j).words m3.u = (ct j).words m.u := by
      intro j hj
      refine words_congr fun q hq => ?_
      rw [u3, if_neg (not_mem_cells (h.ct0 j hj) hq), u2, if_neg (not_mem_cells (h.ct0 j hj) hq), u1,
        if_neg (not_mem_cells (h.ct1 j hj) hq)]
    have hw : d.sub1.words m2.u = (ct (1 + i)).words m.u := by
      unfold UVec.words
      rw [h.sub1, h.ctL _ hi']
      refine List.map_congr_left fun q hq => ?_
      have hq := List.mem_range.mp hq
      rw [u2, if_neg (hs1 q hq), u1, if_pos (by rw [h.sub1]; omega)]
      congr 1; omega
    refine ⟨m', ?_, fun j hj => (h1 j hj).trans (hct j hj), fun j hj => ?_⟩
    · unfold decryptLoop subDecryptPhaseTo
      rw [run_bind, e1, Option.bind_some, run_bind, run_bind, e2, Option.bind_some]
      dsimp only
      rw [e3, Option.bind_some]
      exact e
    · rw [h2 j hj, u3, if_pos (by rw [h.sub0]; omega), hw, u2, if_pos (by rw [h.sub0]; omega)]
      have e0 : d.sub0.off + (d.sub0.off + j - d.sub0.off) = d.sub0.off + j := by omega
      rw [e0, u1, if_neg (hs0 j hj)]
      have ec : decSum d (fun j => (ct j).words m3.u) j (i + 1) bs = decSum d (fun j => (ct j).words m.u) j (i + 1) bs := by
        have : ∀ (bs : List Bool) (i : ℕ), i + bs.length ≤ d.parties.length →
            decSum d (fun j => (ct j).words m3.u) j i bs = decSum d (fun j => (ct j).words m.u) j i bs := by
          intro bs
          induction bs with
          | nil => intros; rfl
          | cons b bs ih =>
            intro i hi
            simp only [List.length_cons] at hi
            rw [decSum, decSum, hct (1 + i) (by omega), ih (i + 1) (by omega)]
        exact this bs (i + 1) (by simp at hi; omega)
      rw [ec]
      have : d.sub0.off + j - d.sub0.off = j := by omega
      rw [this]
      simp [decSum, add_assoc]

theorem run_decryptPhaseTo {d : Decr w} {out : UVec} {ct : ℕ → UVec} (h : DecOk d out ct) (m : Mem w F) :
    ∃ m', decryptPhaseTo d out ct m = some ((), m') ∧
      ∀ j, j < d.N → m'.u (out.off + j) = m.u ((ct 0).off + j) + decSum d (fun j => (ct j).words m.u) j 0 d.parties := by
  obtain ⟨m1, e1, u1⟩ := run_copyTo (F := F) (dst := d.sub0) (src := ct 0) (h.sub0.trans (h.ctL 0 (by omega)).symm) m
  obtain ⟨m2, e2, w2, u2⟩ := run_decryptLoop h d.parties 0 (by omega) m1
  obtain ⟨m', e3, u3⟩ := run_copyTo (F := F) (dst := out) (src := d.sub0) (h.outL.trans h.sub0.symm) m2
  refine ⟨m', ?_, fun j hj => ?_⟩
  · unfold decryptPhaseTo
    rw [run_bind, e1, Option.bind_some, run_bind]
    dsimp only
    rw [e2, Option.bind_some]
    exact e3
  · have hct : ∀ j, j ≤ d.parties.length → (ct j).words m1.u = (ct j).words m.u := by
      intro j hj
      refine words_congr fun q hq => ?_
      rw [u1, if_neg (not_mem_cells (h.ct0 j hj) hq)]
    have : ∀ (bs : List Bool) (i : ℕ), i + bs.length ≤ d.parties.length →
        decSum d (fun j => (ct j).words m1.u) j i bs = decSum d (fun j => (ct j).words m.u) j i bs := by
      intro bs
      induction bs with
      | nil => intros; rfl
      | cons b bs ih =>
        intro i hi
        simp only [List.length_cons] at hi
        rw [decSum, decSum, hct (1 + i) (by omega), ih (i + 1) (by omega)]
    rw [u3, if_pos (by rw [h.outL]; omega), show out.off + j - out.off = j by omega, u2 j hj, u1,
      if_pos (by rw [h.sub0]; omega), show d.sub0.off + j - d.sub0.off = j by omega, this _ 0 (by omega)]

theorem vr_cells {S : Set UCell} {v : UVec} (h : v.cells ⊆ S) : VR S v.vec := by
  rintro i hi a ⟨⟩
  exact h ⟨i, hi, rfl⟩

/-- What a decryption writes: its buffers and the output. -/
def Decr.writes (d : Decr w) (out : UVec) : Set UCell := d.sub0.cells ∪ d.sub1.cells ∪ out.cells

/-- What a decryption reads or writes: also the ciphertext. -/
def Decr.touches (d : Decr w) (out : UVec) (ct : ℕ → UVec) : Set UCell :=
  d.writes out ∪ {c | ∃ j, j ≤ d.parties.length ∧ c ∈ (ct j).cells}

theorem foot_decryptPhaseTo (d : Decr w) (out : UVec) (ct : ℕ → UVec) :
    Foot (d.touches out ct) (d.writes out) (decryptPhaseTo d out ct : M w F Unit) Tr := by
  have hw0 : VR (d.writes out) d.sub0.vec := vr_cells fun _ h => .inl (.inl h)
  have hw1 : VR (d.writes out) d.sub1.vec := vr_cells fun _ h => .inl (.inr h)
  have hr0 : VR (d.touches out ct) d.sub0.vec := vr_cells fun _ h => .inl (.inl (.inl h))
  have hr1 : VR (d.touches out ct) d.sub1.vec := vr_cells fun _ h => .inl (.inl (.inr h))
  have hwo : VR (d.writes out) out.vec := vr_cells fun _ h => .inr h
  have hct : ∀ j, j ≤ d.parties.length → VR (d.touches out ct) (ct j).vec := fun j hj => vr_cells fun _ h => .inr ⟨j, hj, h⟩
  have hl : ∀ (bs : List Bool) (i : ℕ), i + bs.length ≤ d.parties.length →
      Foot (d.touches out ct) (d.writes out) (decryptLoop d ct i bs : M w F Unit) Tr := by
    intro bs
    induction bs with
    | nil => intros; exact foot_ret
    | cons b bs ih =>
      intro i hi
      simp only [List.length_cons] at hi
      cases b
      · exact ih (i + 1) (by omega)
      · refine (foot_copyTo hw1 (hct _ (by omega))).bind fun _ _ => Foot.bind (P := Tr) ?_ fun _ _ => ih (i + 1) (by omega)
        refine (foot_copyTo hw0 hr0).bind fun _ _ => foot_check.bind fun _ _ => (foot_rdAll hr1).bind fun _ _ => ?_
        exact foot_forUp fun _ => (foot_rd hr0).bind fun _ _ => foot_wr hw0
  exact (foot_copyTo hw0 (hct 0 (by omega))).bind fun _ _ => (hl _ 0 (by omega)).bind fun _ _ => foot_copyTo hwo hr0

end Tfhe.Scratch
