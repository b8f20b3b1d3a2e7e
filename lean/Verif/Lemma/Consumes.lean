import Verif.Props.C24

/-! # What a successful read consumed -/
namespace Tfhe.Ser

variable {w v mem : ℕ} {α β : Type}

/-- Whenever `r` succeeds, it has consumed the bytes `b` it counted, and `b` and the result are in the relation `P`. -/
def Consumes (r : Reader α) (P : Bytes → α → Prop) : Prop :=
  ∀ s n x rest, r s = .ok n x rest → ∃ b, s = b ++ rest ∧ n = b.length ∧ P b x

theorem Consumes.mono {r : Reader α} {P Q : Bytes → α → Prop} (h : Consumes r P) (hPQ : ∀ b x, P b x → Q b x) :
    Consumes r Q := by
  intro s n x rest e
  obtain ⟨b, h1, h2, h3⟩ := h s n x rest e
  exact ⟨b, h1, h2, hPQ b x h3⟩

theorem Consumes.bind {r : Reader α} {f : α → Reader β} {P : Bytes → α → Prop} {Q : Bytes → β → Prop}
    (hr : Consumes r P) (hf : ∀ b a, P b a → Consumes (f a) fun b' c => Q (b ++ b') c) :
    Consumes (r.bind f) Q := by
  intro s n c rest e
  unfold Reader.bind at e
  cases e1 : r s with
  | ok n1 a rest1 =>
    rw [e1] at e
    simp only at e
    cases e2 : f a rest1 with
    | ok n2 c2 rest2 =>
      rw [e2] at e
      cases e
      obtain ⟨b, rfl, rfl, hb⟩ := hr _ _ _ _ e1
      obtain ⟨b', rfl, rfl, hb'⟩ := hf b a hb _ _ _ _ e2
      exact ⟨b ++ b', by simp, by simp, hb'⟩
    | err m => rw [e2] at e; cases e
    | panic => rw [e2] at e; cases e
  | err m => rw [e1] at e; cases e
  | panic => rw [e1] at e; cases e

theorem bindForget_ok {r : Reader α} {f : α → Reader β} {s rest : Bytes} {n : ℕ} {c : β}
    (h : r.bindForget f s = .ok n c rest) : r.bind f s = .ok n c rest := by
  unfold Reader.bindForget at h
  unfold Reader.bind
  cases e1 : r s with
  | ok n1 a rest1 =>
    rw [e1] at h
    simp only at h ⊢
    cases e2 : f a rest1 <;> rw [e2] at h <;> simp_all
  | err m => rw [e1] at h; cases h
  | panic => rw [e1] at h; cases h

theorem bindUncounted_ok {r : Reader α} {f : α → Reader β} {s rest : Bytes} {n : ℕ} {c : β}
    (h : r.bindUncounted f s = .ok n c rest) : ∃ m, r.bind f s = .ok m c rest := by
  unfold Reader.bindUncounted at h
  unfold Reader.bind
  cases e1 : r s with
  | ok n1 a rest1 =>
    rw [e1] at h
    simp only at h ⊢
    cases e2 : f a rest1 <;> rw [e2] at h <;> simp_all
  | err m => rw [e1] at h; cases h
  | panic => rw [e1] at h; cases h

theorem Consumes.pure (a : α) : Consumes (Reader.pure a) fun b x => b = [] ∧ x = a := by
  intro s n x rest e
  cases e
  exact ⟨[], rfl, rfl, rfl, rfl⟩

theorem Consumes.lift (o : Option α) : Consumes (Reader.lift o) fun b x => b = [] ∧ o = some x := by
  intro s n x rest e
  cases o with
  | none => cases e
  | some a => cases e; exact ⟨[], rfl, rfl, rfl, rfl⟩

theorem Consumes.map {r : Reader α} {P : Bytes → α → Prop} (f : α → β) (h : Consumes r P) :
    Consumes (r.map f) fun b y => ∃ x, y = f x ∧ P b x :=
  h.bind fun b a hb => (Consumes.pure (f a)).mono fun b' c ⟨h1, h2⟩ => ⟨a, h2, by simpa [h1] using hb⟩

theorem Consumes.lift_bind {o : Option α} {f : α → Reader β} {Q : Bytes → β → Prop}
    (hf : ∀ a, o = some a → Consumes (f a) Q) : Consumes ((Reader.lift o).bind f) Q :=
  (Consumes.lift o).bind fun b a ⟨h1, h2⟩ => (hf a h2).mono fun b' c h => by simpa [h1] using h

theorem Consumes.readFull (k : ℕ) : Consumes (readFull k) fun b x => x = b ∧ b.length = k := by
  intro s n x rest e
  unfold Ser.readFull at e
  split at e
  · rename_i h
    cases e
    exact ⟨s.take k, (List.take_append_drop _ _).symm, by simp [h], rfl, by simp [h]⟩
  · cases e

theorem putBE_append (k : ℕ) (l : Bytes) (x : BitVec 8) (h : putBE k (getBE l) = l) :
    putBE (k + 1) (getBE (l ++ [x])) = l ++ [x] := by
  have := x.isLt
  rw [getBE_append, putBE, show (getBE l * 256 + x.toNat) / 256 = getBE l by omega, h]
  congr 2
  apply BitVec.eq_of_toNat_eq
  rw [BitVec.toNat_ofNat]
  omega

theorem putBE_getBE (b : Bytes) : putBE b.length (getBE b) = b := by
  induction b using List.reverseRecOn with
  | nil => rfl
  | append_singleton l x ih =>
    rw [List.length_append]
    exact putBE_append _ l x ih

theorem getBE_lt (b : Bytes) : getBE b < 256 ^ b.length := by
  induction b using List.reverseRecOn with
  | nil => simp [getBE]
  | append_singleton l x ih =>
    have := x.isLt
    rw [getBE_append, List.length_append, List.length_singleton, pow_succ]
    omega

theorem putU64_getBE {b : Bytes} (h : b.length = 8) : putU64 (BitVec.ofNat 64 (getBE b)) = b := by
  have h1 := getBE_lt b
  rw [h] at h1
  rw [putU64, BitVec.toNat_ofNat, Nat.mod_eq_of_lt (by norm_num at h1 ⊢; exact h1), ← h, putBE_getBE]

theorem putWord_getWord {b : Bytes} (h : b.length = v / 8) : putWord (getWord v b) = b := by
  have h1 := getBE_lt b
  have h2 : 256 ^ b.length ≤ 2 ^ v := by
    rw [h, show (256 : ℕ) = 2 ^ 8 by norm_num, ← pow_mul]
    exact Nat.pow_le_pow_right (by norm_num) (Nat.mul_div_le v 8)
  rw [putWord, getWord, BitVec.toNat_ofNat, Nat.mod_eq_of_lt (by omega), ← h, putBE_getBE]

theorem Consumes.readU64 : Consumes readU64 fun b x => b = putU64 x :=
  ((Consumes.readFull 8).map _).mono fun b x ⟨y, h1, h2, h3⟩ => by
    rw [h1, h2, putU64_getBE h3]

theorem Consumes.readEach {f : α → Reader β} {a : α} {S : β → Prop} {enc : β → Bytes}
    (h : Consumes (f a) fun b y => S y ∧ b = enc y) (m : ℕ) :
    Consumes (readEach f (List.replicate m a))
      fun b l => l.length = m ∧ (∀ y ∈ l, S y) ∧ b = l.flatMap enc := by
  induction m with
  | zero => exact (Consumes.pure []).mono fun b l ⟨h1, h2⟩ => by subst h1 h2; simp
  | succ m ih =>
    rw [List.replicate_succ, Ser.readEach]
    refine h.bind fun b y ⟨hS, hb⟩ => (ih.map _).mono ?_
    rintro b' l ⟨l', rfl, h1, h2, h3⟩
    exact ⟨by simp [h1], by simpa using ⟨hS, h2⟩, by simp [hb, h3]⟩

theorem vecWriteTo_decodeVec : ∀ (n : ℕ) (b : Bytes), b.length = n * (v / 8) →
    vecWriteTo (decodeVec v n b) = b ∧ (decodeVec v n b).length = n
  | 0, b, h => by
    have : b = [] := List.length_eq_zero_iff.1 (by simpa using h)
    subst this
    exact ⟨rfl, rfl⟩
  | n + 1, b, h => by
    have h' : b.length = v / 8 + n * (v / 8) := by rw [h]; ring
    obtain ⟨h1, h2⟩ := vecWriteTo_decodeVec n (b.drop (v / 8)) (by rw [List.length_drop]; omega)
    refine ⟨?_, by simp [decodeVec, h2]⟩
    rw [decodeVec, vecWriteTo, List.flatMap_cons, ← vecWriteTo, h1,
      putWord_getWord (by rw [List.length_take]; omega), List.take_append_drop]

theorem Consumes.vecReadFrom (n : ℕ) (a : BitVec v) :
    Consumes (vecReadFrom (List.replicate n a)) fun b y => y.length = n ∧ b = vecWriteTo y := by
  refine (Consumes.readEach (f := fun _ => (Ser.readFull (v / 8)).map (getWord v)) (a := a) (S := fun _ => True)
    (enc := putWord) (((Consumes.readFull _).map _).mono ?_) n).mono ?_
  · rintro b x ⟨y, rfl, rfl, h⟩
    exact ⟨trivial, (putWord_getWord h).symm⟩
  · rintro b l ⟨h1, -, h3⟩
    exact ⟨h1, h3⟩

theorem Consumes.vecReadFromBuf {len n : ℕ} (a : BitVec v) (hlen : len = n * (v / 8)) :
    Consumes (vecReadFromBuf len (List.replicate n a)) fun b y => y.length = n ∧ b = vecWriteTo y := by
  subst hlen
  refine (Consumes.readFull _).bind ?_
  rintro b y ⟨rfl, h⟩
  refine (Consumes.lift _).mono ?_
  rintro b' x ⟨rfl, hx⟩
  rw [if_pos (by simp)] at hx
  cases hx
  obtain ⟨h1, h2⟩ := vecWriteTo_decodeVec n y h
  rw [List.length_replicate, h1]
  exact ⟨h2, by simp⟩

theorem Consumes.polys {len k N : ℕ} (hlen : len = N * (v / 8)) :
    Consumes (Ser.readEach (Ser.vecReadFromBuf len) (List.replicate k (List.replicate N (0 : BitVec v))))
      fun b y => Polys k N y ∧ b = encPolys y :=
  (Consumes.readEach (Consumes.vecReadFromBuf 0 hlen) k).mono fun _ _ ⟨h1, h2, h3⟩ => ⟨⟨h1, h2⟩, h3⟩

theorem Consumes.glev {len k N : ℕ} (g : GadgetParams w) (hlen : len = N * (v / 8)) :
    Consumes ((Ser.readEach (Ser.readEach (Ser.vecReadFromBuf len)) (List.replicate g.level
      (List.replicate k (List.replicate N (0 : BitVec v))))).map fun y => (⟨g, y⟩ : GLev w v))
      fun b y => IsGLevShape g k N y ∧ b = encGLev y := by
  refine ((Consumes.readEach (Consumes.polys hlen) g.level).map _).mono ?_
  rintro b x ⟨y, rfl, h1, h2, h3⟩
  exact ⟨⟨rfl, h1, h2⟩, h3⟩

theorem Consumes.lev {len n : ℕ} (g : GadgetParams w) (hlen : len = n * (w / 8)) :
    Consumes ((Ser.readEach (Ser.vecReadFromBuf len) (List.replicate g.level
      (List.replicate n (0 : BitVec w)))).map fun y => (⟨g, y⟩ : Lev w))
      fun b y => IsLevShape g n y ∧ b = encLev y := by
  refine ((Consumes.readEach (Consumes.vecReadFromBuf 0 hlen) g.level).map _).mono ?_
  rintro b x ⟨y, rfl, h1, h2, h3⟩
  exact ⟨⟨rfl, h1, h2⟩, h3⟩

theorem Consumes.levs {len m n : ℕ} (g : GadgetParams w) (hlen : len = n * (w / 8)) :
    Consumes (readLevs len (zeroLevs g m n)) fun b y => IsLevs g m n y ∧ b = encLevs y := by
  refine ((Consumes.readEach (a := (⟨g, List.replicate g.level (List.replicate n 0)⟩ : Lev w))
    (Consumes.lev g hlen) m).map _).mono ?_
  rintro b x ⟨y, rfl, h1, h2, h3⟩
  exact ⟨⟨rfl, h1, h2⟩, h3⟩

theorem Consumes.glevs {len m k N : ℕ} (g : GadgetParams w) (hlen : len = N * (v / 8)) :
    Consumes (readGLevs len (zeroGLevs v g m k N)) fun b y => IsGLevs g m k N y ∧ b = encGGSW y := by
  refine ((Consumes.readEach (a := (⟨g, List.replicate g.level (List.replicate k (List.replicate N 0))⟩ : GLev w v))
    (Consumes.glev g hlen) m).map _).mono ?_
  rintro b x ⟨y, rfl, h1, h2, h3⟩
  exact ⟨⟨rfl, h1, h2⟩, h3⟩

/-! ## What the constructors returned -/

theorem mkSlice_inv {n : BitVec 64} {a : α} {l : List α} (h : mkSlice mem n a = some l) :
    ∃ m ≤ mem, n = BitVec.ofNat 64 m ∧ l = List.replicate m a := by
  unfold mkSlice at h
  split at h
  · cases h
  · rename_i hc
    cases h
    have h0 : 0 ≤ n.toInt := by omega
    have h1 : n.toInt = n.toNat := by
      have := n.isLt
      rw [BitVec.toInt_eq_toNat_cond] at h0 ⊢
      split_ifs at h0 ⊢ <;> omega
    exact ⟨n.toNat, by omega, by simp, rfl⟩

theorem fill_inv {o : Option α} : ∀ {m : ℕ} {l : List α}, fill m o = some l →
    (m = 0 ∧ l = []) ∨ ∃ a, o = some a ∧ l = List.replicate m a
  | 0, l, h => by cases h; exact .inl ⟨rfl, rfl⟩
  | m + 1, l, h => by
    cases o with
    | none => cases h
    | some a => rw [fill_some] at h; cases h; exact .inr ⟨a, rfl, rfl⟩

theorem makeEach_inv {n : BitVec 64} {o : Option α} {l : List α} (h : makeEach mem n o = some l) :
    ∃ m ≤ mem, n = BitVec.ofNat 64 m ∧ ((m = 0 ∧ l = []) ∨ ∃ a, o = some a ∧ l = List.replicate m a) := by
  unfold makeEach at h
  obtain ⟨u, hu, h⟩ := Option.bind_eq_some_iff.1 h
  obtain ⟨m, hm, hn, rfl⟩ := mkSlice_inv hu
  rw [List.length_replicate] at h
  exact ⟨m, hm, hn, fill_inv h⟩

theorem newPoly_inv {N : BitVec 64} {p : List (BitVec v)} (h : newPoly mem N = some p) :
    ∃ m, RankOK mem m ∧ N = BitVec.ofNat 64 m ∧ p = List.replicate m 0 := by
  unfold newPoly newPolyRank at h
  split at h
  · cases h
  · rename_i hp
    split at h
    · cases h
    · rename_i h16
      rw [Option.bind_some] at h
      split at h
      · rename_i hm
        cases h
        have h1 : N.toInt = N.toNat := by
          have := N.isLt
          rw [BitVec.toInt_eq_toNat_cond] at h16 ⊢
          split_ifs at h16 ⊢ <;> omega
        obtain ⟨j, hj⟩ := (isPowerOfTwoInt_iff N).1 (by simpa using hp)
        refine ⟨N.toNat, ⟨⟨j, ?_⟩, by omega, hm⟩, by simp, rfl⟩
        rw [h1] at hj
        exact_mod_cast hj
      · cases h

theorem newGLWECiphertext_inv {k N : BitVec 64} {x : List (List (BitVec v))}
    (h : newGLWECiphertext mem k N = some x) (hx : x ≠ []) :
    ∃ m N', 0 < m ∧ m ≤ mem ∧ RankOK mem N' ∧ k = BitVec.ofNat 64 m - 1 ∧ N = BitVec.ofNat 64 N' ∧
      x = List.replicate m (List.replicate N' 0) := by
  obtain ⟨m, hm, hk, ⟨-, h⟩ | ⟨p, hp, h⟩⟩ := makeEach_inv h
  · exact absurd h hx
  · obtain ⟨N', hN, rfl, rfl⟩ := newPoly_inv hp
    refine ⟨m, N', ?_, hm, hN, ?_, rfl, h⟩
    · rcases Nat.eq_zero_or_pos m with rfl | h0
      · exact absurd h hx
      · exact h0
    · rw [← hk]; exact (BitVec.add_sub_cancel _ _).symm

theorem compile_inv {base level : BitVec 64} {g : GadgetParams w}
    (h : GadgetLit.compile { base := base.setWidth w, level := level } = some g) :
    g.base = base.setWidth w ∧ level = BitVec.ofNat 64 g.level ∧ 0 < g.level ∧ g.level < 2 ^ 64 := by
  have hp := compile_pos h
  unfold GadgetLit.compile at h
  split at h
  · cases h
  split at h
  · cases h
  split at h
  · cases h
  obtain ⟨lb, _, h⟩ := Option.bind_eq_some_iff.1 h
  split at h
  · cases h
  · cases h
    exact ⟨rfl, by simp, hp, level.isLt⟩

theorem ofNat_inj_of_lt {a b : ℕ} (ha : a < 2 ^ 64) (hb : b < 2 ^ 64) (h : BitVec.ofNat 64 a = BitVec.ofNat 64 b) :
    a = b := by
  have := congrArg BitVec.toNat h
  rwa [BitVec.toNat_ofNat, BitVec.toNat_ofNat, Nat.mod_eq_of_lt ha, Nat.mod_eq_of_lt hb] at this

/-- A slice with one entry per level of a compiled gadget. -/
theorem makeLevels_inv {g : GadgetParams w} (hm : mem < 2 ^ 63) (hl : 0 < g.level) (hl' : g.level < 2 ^ 64)
    {o : Option α} {l : List α} (h : makeEach mem (BitVec.ofNat 64 g.level) o = some l) :
    g.level ≤ mem ∧ ∃ a, o = some a ∧ l = List.replicate g.level a := by
  obtain ⟨m, hmm, hn, h⟩ := makeEach_inv h
  have : g.level = m := ofNat_inj_of_lt hl' (by omega) hn
  subst this
  rcases h with ⟨h0, -⟩ | h
  · omega
  · exact ⟨hmm, h⟩

theorem newLev_inv (hm : mem < 2 ^ 63) {g : GadgetParams w} (hl : 0 < g.level) (hl' : g.level < 2 ^ 64)
    {n : BitVec 64} {x : Lev w} (h : newLev mem n g = some x) :
    g.level ≤ mem ∧ ∃ m ≤ mem, n = BitVec.ofNat 64 m - 1 ∧
      x = ⟨g, List.replicate g.level (List.replicate m 0)⟩ := by
  obtain ⟨l, hl1, rfl⟩ := Option.map_eq_some_iff.1 h
  obtain ⟨h1, a, ha, rfl⟩ := makeLevels_inv hm hl hl' hl1
  obtain ⟨m, hmm, hn, rfl⟩ := mkSlice_inv ha
  exact ⟨h1, m, hmm, by rw [← hn]; exact (BitVec.add_sub_cancel _ _).symm, rfl⟩

theorem newGLev_inv (hm : mem < 2 ^ 63) {g : GadgetParams w} (hl : 0 < g.level) (hl' : g.level < 2 ^ 64)
    {k N : BitVec 64} {x : GLev w v} (h : newGLev mem k N g = some x) (hx : (GLev.rank x).isSome) :
    g.level ≤ mem ∧ ∃ m N', 0 < m ∧ m ≤ mem ∧ RankOK mem N' ∧ k = BitVec.ofNat 64 m - 1 ∧
      N = BitVec.ofNat 64 N' ∧ x = ⟨g, List.replicate g.level (List.replicate m (List.replicate N' 0))⟩ := by
  obtain ⟨l, hl1, rfl⟩ := Option.map_eq_some_iff.1 h
  obtain ⟨h1, a, ha, rfl⟩ := makeLevels_inv hm hl hl' hl1
  have hne : a ≠ [] := by
    rintro rfl
    obtain ⟨j, hj⟩ : ∃ j, g.level = j + 1 := ⟨g.level - 1, by omega⟩
    simp [GLev.rank, hj, List.replicate_succ, rank0] at hx
  obtain ⟨m, N', h2, h3, h4, h5, h6, rfl⟩ := newGLWECiphertext_inv ha hne
  exact ⟨h1, m, N', h2, h3, h4, h5, h6, rfl⟩

end Tfhe.Ser
