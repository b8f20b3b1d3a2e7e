import Verif.Spec.Marshal
import Verif.Lemma.Bytes
import Verif.Props.C23

/-! # Reading back each type -/
namespace Tfhe.Ser

variable {w v : ℕ} {mem : ℕ}

/-! ## Encodings -/

/-- The bytes of polynomials. -/
def encPolys (x : List (List (BitVec v))) : Bytes := x.flatMap vecWriteTo
/-- The bytes of a GLev ciphertext. -/
def encGLev (x : GLev w v) : Bytes := x.value.flatMap encPolys
/-- The bytes of a GGSW ciphertext. -/
def encGGSW (x : GGSW w v) : Bytes := x.value.flatMap encGLev
/-- The bytes of a Lev ciphertext. -/
def encLev (x : Lev w) : Bytes := x.value.flatMap vecWriteTo
/-- The bytes of Lev ciphertexts. -/
def encLevs (x : GSW w) : Bytes := x.value.flatMap encLev

theorem encPolys_length {k N : ℕ} {x : List (List (BitVec v))} (h : Polys k N x) :
    (encPolys x).length = k * (N * (v / 8)) := by
  rw [encPolys, flatMap_length_const (c := N * (v / 8)), h.length]
  intro p hp
  rw [vecWriteTo_length, h.rank p hp]

theorem encGLev_length {g : GadgetParams w} {k N : ℕ} {x : GLev w v} (h : IsGLevShape g k N x) :
    (encGLev x).length = g.level * (k * (N * (v / 8))) := by
  rw [encGLev, flatMap_length_const (c := k * (N * (v / 8))), h.length]
  exact fun ct hct => encPolys_length (h.entry ct hct)

theorem encGGSW_length {g : GadgetParams w} {m k N : ℕ} {x : GGSW w v} (h : IsGLevs g m k N x) :
    (encGGSW x).length = m * (g.level * (k * (N * (v / 8)))) := by
  rw [encGGSW, flatMap_length_const (c := g.level * (k * (N * (v / 8)))), h.length]
  exact fun ct hct => encGLev_length (h.entry ct hct)

theorem encLev_length {g : GadgetParams w} {n : ℕ} {x : Lev w} (h : IsLevShape g n x) :
    (encLev x).length = g.level * (n * (w / 8)) := by
  rw [encLev, flatMap_length_const (c := n * (w / 8)), h.length]
  intro p hp
  rw [vecWriteTo_length, h.entry p hp]

theorem encLevs_length {g : GadgetParams w} {m n : ℕ} {x : GSW w} (h : IsLevs g m n x) :
    (encLevs x).length = m * (g.level * (n * (w / 8))) := by
  rw [encLevs, flatMap_length_const (c := g.level * (n * (w / 8))), h.length]
  exact fun ct hct => encLev_length (h.entry ct hct)

/-! ## Gadgets and headers -/

theorem compile_pos {p : GadgetLit w} {g : GadgetParams w} (h : p.compile = some g) :
    0 < g.level := by
  unfold GadgetLit.compile at h
  split at h
  · simp at h
  split at h
  · simp at h
  split at h
  · simp at h
  rename_i hl
  rw [Option.bind_eq_some_iff] at h
  obtain ⟨lb, _, h⟩ := h
  split at h
  · simp at h
  · simp only [Option.some.injEq] at h
    rw [← h]
    show 0 < p.level.toNat
    have : p.level ≠ 0 := by
      rintro hc
      simp [hc] at hl
    have h0 : p.level.toNat ≠ 0 := fun hc => this (BitVec.eq_of_toNat_eq (by simpa using hc))
    omega

theorem Compiled.pos {g : GadgetParams w} (h : Compiled mem g) : 0 < g.level := by
  obtain ⟨p, hp⟩ := h.lit
  exact compile_pos hp

theorem Compiled.compile {g : GadgetParams w} (hw : w ≤ 64) (h : Compiled mem g) :
    GadgetLit.compile { base := (g.base.setWidth 64).setWidth w, level := BitVec.ofNat 64 g.level }
      = some g := by
  obtain ⟨p, hp⟩ := h.lit
  have h1 := gadget_literal p g hp
  have h2 : (g.base.setWidth 64).setWidth w = g.base := by
    apply BitVec.eq_of_toNat_eq
    have hb := g.base.isLt
    have h64 : 2 ^ w ≤ 2 ^ 64 := Nat.pow_le_pow_right (by norm_num) hw
    rw [BitVec.toNat_setWidth, BitVec.toNat_setWidth, Nat.mod_eq_of_lt (by omega),
      Nat.mod_eq_of_lt (by omega)]
  rw [h2]
  show (g.literal).compile = some g
  rw [h1, hp]

theorem rank0_polys {k N : ℕ} {x : List (List (BitVec v))} (h : Polys k N x) (hk : 0 < k) :
    rank0 x = some N := by
  cases x with
  | nil => have := h.length; simp at this; omega
  | cons p x => simp [rank0, h.rank p (by simp)]

theorem rank0_replicate {k N : ℕ} (hk : 0 < k) :
    rank0 (List.replicate k (List.replicate N (0 : BitVec v))) = some N :=
  rank0_polys ⟨by simp, fun p hp => by simp [List.eq_of_mem_replicate hp]⟩ hk

theorem GLev.rank_eq {g : GadgetParams w} {k N : ℕ} {x : GLev w v} (h : IsGLevShape g k N x)
    (hl : 0 < g.level) (hk : 0 < k) : GLev.rank x = some N := by
  obtain ⟨gd, val⟩ := x
  cases val with
  | nil => have := h.length; simp at this; omega
  | cons ct l => exact rank0_polys (h.entry ct (by simp)) hk

theorem GGSW.rank_eq {g : GadgetParams w} {m k N : ℕ} {x : GGSW w v} (h : IsGLevs g m k N x)
    (hm : 0 < m) (hl : 0 < g.level) (hk : 0 < k) : GGSW.rank x = some N := by
  obtain ⟨gd, val⟩ := x
  cases val with
  | nil => have := h.length; simp at this; omega
  | cons ct l => exact GLev.rank_eq (h.entry ct (by simp)) hl hk

theorem BRK.rank_eq {g : GadgetParams w} {n k N : ℕ} {x : BRK w} (h : IsBRKShape g n k N x)
    (hn : 0 < n) (hl : 0 < g.level) (hk : 0 < k) : BRK.rank x = some N := by
  obtain ⟨gd, val⟩ := x
  cases val with
  | nil => have := h.length; simp at this; omega
  | cons ct l => exact GGSW.rank_eq (h.entry ct (by simp)) hk hl hk

/-! ## Constructors on the fields that were written -/

theorem newPoly_ofNat (hm : mem < 2 ^ 63) {N : ℕ} (h : RankOK mem N) :
    newPoly mem (BitVec.ofNat 64 N) = some (List.replicate N (0 : BitVec v)) := by
  have hle := h.le
  have hi := toInt_ofNat_lt (n := N) (by omega)
  have hp : isPowerOfTwoInt (BitVec.ofNat 64 N) = true := by
    obtain ⟨j, hj⟩ := h.pow
    exact (isPowerOfTwoInt_iff _).2 ⟨j, by rw [hi, hj]; push_cast; rfl⟩
  have h16 := h.min
  rw [newPoly, newPolyRank, hp, hi, if_neg (by simp), if_neg (by omega), Option.bind_some,
    BitVec.toNat_ofNat, Nat.mod_eq_of_lt (by omega), if_pos hle]

theorem newGLWECiphertext_ofNat (hm : mem < 2 ^ 63) {k N : ℕ} (hk : k ≤ mem) (h : RankOK mem N) :
    newGLWECiphertext mem (BitVec.ofNat 64 k - 1) (BitVec.ofNat 64 N)
      = some (List.replicate k (List.replicate N (0 : BitVec v))) := by
  rw [newGLWECiphertext, pred_succ, makeEach_ofNat hm hk (newPoly_ofNat hm h)]

theorem newLev_ofNat (hm : mem < 2 ^ 63) {n : ℕ} (hn : n ≤ mem) {g : GadgetParams w}
    (hg : Compiled mem g) : newLev mem (BitVec.ofNat 64 n - 1) g
      = some ⟨g, List.replicate g.level (List.replicate n 0)⟩ := by
  have h : newLWECiphertext mem (BitVec.ofNat 64 n - 1) = some (List.replicate n (0 : BitVec w)) := by
    rw [newLWECiphertext, pred_succ, mkSlice_ofNat hm hn]
  rw [newLev, makeEach_ofNat hm hg.le h]
  rfl

theorem newGLev_ofNat (hm : mem < 2 ^ 63) {k N : ℕ} (hk : k ≤ mem) (h : RankOK mem N)
    {g : GadgetParams w} (hg : Compiled mem g) :
    newGLev mem (BitVec.ofNat 64 k - 1) (BitVec.ofNat 64 N) g
      = some ⟨g, List.replicate g.level (List.replicate k (List.replicate N (0 : BitVec v)))⟩ := by
  rw [newGLev, makeEach_ofNat hm hg.le (newGLWECiphertext_ofNat hm hk h)]
  rfl

/-! ## Reading into fresh values -/

theorem Rt.polys (hv : 8 ∣ v) {k N len : ℕ} {x : List (List (BitVec v))} (h : Polys k N x)
    (hlen : len = N * (v / 8)) :
    Rt (Ser.readEach (Ser.vecReadFromBuf len) (List.replicate k (List.replicate N (0 : BitVec v))))
      (encPolys x) x :=
  Rt.readEach h.length fun p hp => Rt.vecReadFromBuf hv (h.rank p hp) hlen

theorem Rt.glev (hv : 8 ∣ v) {k N len : ℕ} {g : GadgetParams w} {x : GLev w v}
    (h : IsGLevShape g k N x) (hlen : len = N * (v / 8)) :
    Rt ((Ser.readEach (Ser.readEach (Ser.vecReadFromBuf len)) (List.replicate g.level
      (List.replicate k (List.replicate N (0 : BitVec v))))).map (fun y => (⟨g, y⟩ : GLev w v)))
      (encGLev x) x := by
  have h1 := Rt.map (fun y => (⟨g, y⟩ : GLev w v)) (Rt.readEach (enc := encPolys)
    (f := Ser.readEach (Ser.vecReadFromBuf len)) (a := List.replicate k (List.replicate N 0))
    h.length fun ct hct => Rt.polys hv (h.entry ct hct) hlen)
  rw [← h.gadget] at h1 ⊢
  exact h1

theorem Rt.lev (hw : 8 ∣ w) {n len : ℕ} {g : GadgetParams w} {x : Lev w}
    (h : IsLevShape g n x) (hlen : len = n * (w / 8)) :
    Rt ((Ser.readEach (Ser.vecReadFromBuf len) (List.replicate g.level
      (List.replicate n (0 : BitVec w)))).map (fun y => (⟨g, y⟩ : Lev w)))
      (encLev x) x := by
  have h1 := Rt.map (fun y => (⟨g, y⟩ : Lev w)) (Rt.readEach (enc := vecWriteTo)
    (f := Ser.vecReadFromBuf len) (a := List.replicate n 0)
    h.length fun ct hct => Rt.vecReadFromBuf hw (h.entry ct hct) hlen)
  rw [← h.gadget] at h1 ⊢
  exact h1

/-- Fresh Lev ciphertexts. -/
def zeroLevs (g : GadgetParams w) (m n : ℕ) : GSW w :=
  ⟨g, List.replicate m ⟨g, List.replicate g.level (List.replicate n 0)⟩⟩

/-- Fresh GLev ciphertexts. -/
def zeroGLevs (v : ℕ) (g : GadgetParams w) (m k N : ℕ) : GGSW w v :=
  ⟨g, List.replicate m ⟨g, List.replicate g.level (List.replicate k (List.replicate N 0))⟩⟩

theorem Rt.levs (hw : 8 ∣ w) {m n len : ℕ} {g : GadgetParams w} {x : GSW w}
    (h : IsLevs g m n x) (hlen : len = n * (w / 8)) :
    Rt (readLevs len (zeroLevs g m n)) (encLevs x) x := by
  have h1 := Rt.map (fun y => (⟨g, y⟩ : GSW w)) (Rt.readEach (enc := encLev)
    (f := fun row : Lev w =>
      (Ser.readEach (Ser.vecReadFromBuf len) row.value).map (fun y => (⟨row.gadget, y⟩ : Lev w)))
    (a := ⟨g, List.replicate g.level (List.replicate n 0)⟩)
    h.length fun ct hct => Rt.lev hw (h.entry ct hct) hlen)
  rw [← h.gadget] at h1 ⊢
  exact h1

theorem Rt.glevs (hv : 8 ∣ v) {m k N len : ℕ} {g : GadgetParams w} {x : GGSW w v}
    (h : IsGLevs g m k N x) (hlen : len = N * (v / 8)) :
    Rt (readGLevs len (zeroGLevs v g m k N)) (encGGSW x) x := by
  have h1 := Rt.map (fun y => (⟨g, y⟩ : GGSW w v)) (Rt.readEach (enc := encGLev)
    (f := fun row : GLev w v => (Ser.readEach (Ser.readEach (Ser.vecReadFromBuf len)) row.value).map
      (fun y => (⟨row.gadget, y⟩ : GLev w v)))
    (a := ⟨g, List.replicate g.level (List.replicate k (List.replicate N 0))⟩)
    h.length fun ct hct => Rt.glev hv (h.entry ct hct) hlen)
  rw [← h.gadget] at h1 ⊢
  exact h1

theorem zeroGLevs_shape (g : GadgetParams w) (m k N : ℕ) :
    IsGLevs g m k N (zeroGLevs v g m k N) where
  gadget := rfl
  length := by simp [zeroGLevs]
  entry row hr := by
    rw [List.eq_of_mem_replicate hr]
    refine ⟨rfl, by simp, fun ct hct => ?_⟩
    rw [List.eq_of_mem_replicate hct]
    exact ⟨by simp, fun p hp => by simp [List.eq_of_mem_replicate hp]⟩

theorem zeroLevs_shape (g : GadgetParams w) (m n : ℕ) : IsLevs g m n (zeroLevs g m n) where
  gadget := rfl
  length := by simp [zeroLevs]
  entry row hr := by
    rw [List.eq_of_mem_replicate hr]
    exact ⟨rfl, by simp, fun p hp => by simp [List.eq_of_mem_replicate hp]⟩

/-! ## Writing -/

theorem finish_eq {h b : Bytes} {ho bo : Option Bytes} {so : Option ℕ} (hh : ho = some h)
    (hb : bo = some b) (hs : so = some (h ++ b).length) :
    finish ho bo so = some ⟨h ++ b, false⟩ := by
  simp [finish, hh, hb, hs]

theorem andThen_eq {a b : Bytes} {ao bo : Option Wr} (ha : ao = some ⟨a, false⟩)
    (hb : bo = some ⟨b, false⟩) : Wr.andThen ao bo = some ⟨a ++ b, false⟩ := by
  simp [Wr.andThen, ha, hb]

theorem check_eq {a : Bytes} {ao : Option Wr} {so : Option ℕ} (ha : ao = some ⟨a, false⟩)
    (hs : so = some a.length) : Wr.check ao so = some ⟨a, false⟩ := by
  simp [Wr.check, ha, hs]

end Tfhe.Ser
