import Verif.Lemma.AsmVec
import Verif.Model.AsmVecGo
import Verif.Props.C06

/-!
# C65: the AVX2 kernels of `math/vec` compute the same as the Go loops

Memory, slices and aliasing are described here without the lemmas about the programs.
-/
namespace Tfhe
namespace Asm

/-! ### Specification -/

/-- The slice `s` of `uint32` holds `v`. -/
def Has32 (m : Memory) (s : GoSlice) (v : List (BitVec 32)) : Prop :=
  s.len = v.length ∧ s.base.toNat % 4 = 0 ∧
    ∀ i (h : i < v.length), m (s.base + BitVec.ofNat 64 (4 * i)) = some v[i]

/-- The slice `s` of `uint64` holds `v`; the low half of each element comes first. -/
def Has64 (m : Memory) (s : GoSlice) (v : List (BitVec 64)) : Prop :=
  s.len = v.length ∧ s.base.toNat % 4 = 0 ∧
    ∀ i (h : i < v.length), m (s.base + BitVec.ofNat 64 (8 * i)) = some (v[i].setWidth 32) ∧
      m (s.base + BitVec.ofNat 64 (8 * i + 4)) = some ((v[i] >>> 32).setWidth 32)

/-- The input slice `a`, of elements of `w` bits, starts where `o` starts, or the two have no word in common. -/
def Alias (w : Nat) (a o : GoSlice) : Prop :=
  a.base = o.base ∨ ∀ i < w / 32 * a.len, ∀ j < w / 32 * o.len,
    a.base + BitVec.ofNat 64 (4 * i) ≠ o.base + BitVec.ofNat 64 (4 * j)

/-- Nothing outside the slice `o` of `uint32` changed. -/
def Outside32 (m m' : Memory) (o : GoSlice) : Prop :=
  ∀ x, (∀ i < o.len, x ≠ o.base + BitVec.ofNat 64 (4 * i)) → m' x = m x

/-- Nothing outside the slice `o` of `uint64` changed. -/
def Outside64 (m m' : Memory) (o : GoSlice) : Prop :=
  ∀ x, (∀ i < o.len, x ≠ o.base + BitVec.ofNat 64 (8 * i) ∧ x ≠ o.base + BitVec.ofNat 64 (8 * i + 4)) → m' x = m x

/-! ### Connection with the lemmas about the programs -/

theorem holds32 {m : Memory} {s : GoSlice} {v : List (BitVec 32)} (h : Has32 m s v) :
    s.len = v.length ∧ Holds m s.base (fun i => v.getD i 0) v.length :=
  ⟨h.1, h.2.1, fun i hi => by rw [h.2.2 i hi]; simp [hi]⟩

theorem dw_even (A : Nat → BitVec 64) (i : Nat) : dw A (2 * i) = (A i).setWidth 32 := by
  have h : 2 * i % 2 = 0 := by omega
  have h' : 2 * i / 2 = i := by omega
  rw [dw, if_pos h, h']

theorem dw_odd (A : Nat → BitVec 64) (i : Nat) : dw A (2 * i + 1) = (A i >>> 32).setWidth 32 := by
  have h : ¬ (2 * i + 1) % 2 = 0 := by omega
  have h' : (2 * i + 1) / 2 = i := by omega
  rw [dw, if_neg h, h']

theorem holds64 {m : Memory} {s : GoSlice} {v : List (BitVec 64)} (h : Has64 m s v) :
    s.len = v.length ∧ Holds m s.base (dw fun i => v.getD i 0) (2 * v.length) := by
  refine ⟨h.1, h.2.1, fun j hj => ?_⟩
  have hi : j / 2 < v.length := by omega
  obtain ⟨h1, h2⟩ := h.2.2 _ hi
  have hv : v.getD (j / 2) 0 = v[j / 2] := by simp [hi]
  rcases Nat.mod_two_eq_zero_or_one j with h0 | h0
  · have hj2 : j = 2 * (j / 2) := by omega
    generalize j / 2 = q at *
    subst hj2
    rw [dw_even, hv, ← h1]; congr 3; omega
  · have hj2 : j = 2 * (j / 2) + 1 := by omega
    generalize j / 2 = q at *
    subst hj2
    rw [dw_odd, hv, ← h2]; congr 3; omega

theorem alias32 {a o : GoSlice} : Alias 32 a o ↔ (a.base = o.base ∨ ∀ i < a.len, ∀ j < o.len,
    a.base + BitVec.ofNat 64 (4 * i) ≠ o.base + BitVec.ofNat 64 (4 * j)) := by simp [Alias]

theorem alias64 {a o : GoSlice} : Alias 64 a o ↔ (a.base = o.base ∨ ∀ i < 2 * a.len, ∀ j < 2 * o.len,
    a.base + BitVec.ofNat 64 (4 * i) ≠ o.base + BitVec.ofNat 64 (4 * j)) := by simp [Alias]

theorem ahead_of {a o : BitVec 64} {n : Nat} (h : a = o ∨ ∀ i < n, ∀ j < n,
    a + BitVec.ofNat 64 (4 * i) ≠ o + BitVec.ofNat 64 (4 * j)) (hn : 4 * n ≤ 2 ^ 64) : Ahead a o n := by
  rcases h with rfl | h
  · exact ahead_self _ hn
  · exact fun i j hj hi => h i hi j (by omega)

theorem has32_over {m : Memory} {o : GoSlice} {vo v : List (BitVec 32)} {R : Nat → BitVec 32} (h : Has32 m o vo)
    (hl : o.len = vo.length) (hn : vo.length < 2 ^ 60) (hv : v.length = vo.length)
    (hR : ∀ i (h : i < v.length), v[i] = R i) : Has32 (over m o.base R vo.length) o v := by
  refine ⟨by omega, h.2.1, fun i hi => ?_⟩
  rw [over_at (by omega) (by omega), hR]

theorem has64_over {m : Memory} {o : GoSlice} {vo v : List (BitVec 64)} {R : Nat → BitVec 64} (h : Has64 m o vo)
    (hl : o.len = vo.length) (hn : vo.length < 2 ^ 60) (hv : v.length = vo.length)
    (hR : ∀ i (h : i < v.length), v[i] = R i) : Has64 (over m o.base (dw R) (2 * vo.length)) o v := by
  refine ⟨by omega, h.2.1, fun i hi => ?_⟩
  rw [show 8 * i = 4 * (2 * i) by omega, over_at (by omega) (by omega), dw_even,
    show 4 * (2 * i) + 4 = 4 * (2 * i + 1) by omega, over_at (by omega) (by omega), dw_odd, hR]
  exact ⟨rfl, rfl⟩

theorem outside32_over {m : Memory} {o : GoSlice} {R : Nat → BitVec 32} {n : Nat} (hl : o.len = n) :
    Outside32 m (over m o.base R n) o := fun x hx => over_off fun i hi => hx i (by omega)

theorem outside64_over {m : Memory} {o : GoSlice} {R : Nat → BitVec 64} {n : Nat} (hl : o.len = n) :
    Outside64 m (over m o.base (dw R) (2 * n)) o := fun x hx => over_off fun i hi e => by
  obtain ⟨h1, h2⟩ := hx (i / 2) (by omega)
  rcases Nat.mod_two_eq_zero_or_one i with h | h
  · exact h1 (by rw [e]; congr 2; omega)
  · exact h2 (by rw [e]; congr 2; omega)

/-! ### The sixteen kernels -/

/-- `AddTo` on `uint32`. -/
theorem C65_addTo32 (F : Fpu) (g : Reg → BitVec 64) (y : Nat → Y) (m : Memory) (o a b : GoSlice)
    (vo va vb : List (BitVec 32)) (ho : Has32 m o vo) (ha : Has32 m a va) (hb : Has32 m b vb)
    (hla : va.length = vo.length) (hlb : vb.length = vo.length) (hn : vo.length < 2 ^ 60)
    (fa : Alias 32 a o) (fb : Alias 32 b o) :
    ∃ m', addTo32 F o a b g y m (some m') ∧ Has32 m' o (List.zipWith (· + ·) va vb) ∧ Outside32 m m' o := by
  obtain ⟨ho1, ho2⟩ := holds32 ho
  obtain ⟨ha1, ha2⟩ := holds32 ha
  obtain ⟨hb1, hb2⟩ := holds32 hb
  rw [hla] at ha1 ha2
  rw [hlb] at hb1 hb2
  rw [alias32] at fa fb
  rw [ha1, ho1] at fa
  rw [hb1, ho1] at fb
  have h := addToUint32AVX2_spec (F := F) (c1 := o.cap) (c2 := a.cap) (c3 := b.cap) hn g y m ho2 ha2 hb2
    (ahead_of fa (by omega)) (ahead_of fb (by omega))
  refine ⟨_, ⟨by simp [checkLength, ho1, ha1, hb1], by simpa [GoSlice.arg, ho1, ha1, hb1] using h⟩,
    has32_over ho ho1 hn (by simp [hla, hlb]) (fun i hi => ?_), outside32_over ho1⟩
  have q : i < vo.length := by simpa [hla, hlb] using hi
  simp [q, hla, hlb]

/-- `SubTo` on `uint32`. -/
theorem C65_subTo32 (F : Fpu) (g : Reg → BitVec 64) (y : Nat → Y) (m : Memory) (o a b : GoSlice)
    (vo va vb : List (BitVec 32)) (ho : Has32 m o vo) (ha : Has32 m a va) (hb : Has32 m b vb)
    (hla : va.length = vo.length) (hlb : vb.length = vo.length) (hn : vo.length < 2 ^ 60)
    (fa : Alias 32 a o) (fb : Alias 32 b o) :
    ∃ m', subTo32 F o a b g y m (some m') ∧ Has32 m' o (List.zipWith (· - ·) va vb) ∧ Outside32 m m' o := by
  obtain ⟨ho1, ho2⟩ := holds32 ho
  obtain ⟨ha1, ha2⟩ := holds32 ha
  obtain ⟨hb1, hb2⟩ := holds32 hb
  rw [hla] at ha1 ha2
  rw [hlb] at hb1 hb2
  rw [alias32] at fa fb
  rw [ha1, ho1] at fa
  rw [hb1, ho1] at fb
  have h := subToUint32AVX2_spec (F := F) (c1 := o.cap) (c2 := a.cap) (c3 := b.cap) hn g y m ho2 ha2 hb2
    (ahead_of fa (by omega)) (ahead_of fb (by omega))
  refine ⟨_, ⟨by simp [checkLength, ho1, ha1, hb1], by simpa [GoSlice.arg, ho1, ha1, hb1] using h⟩,
    has32_over ho ho1 hn (by simp [hla, hlb]) (fun i hi => ?_), outside32_over ho1⟩
  have q : i < vo.length := by simpa [hla, hlb] using hi
  simp [q, hla, hlb]

/-- `ScalarMulTo` on `uint32`. -/
theorem C65_scalarMulTo32 (F : Fpu) (g : Reg → BitVec 64) (y : Nat → Y) (m : Memory) (o a : GoSlice)
    (c : BitVec 32) (vo va : List (BitVec 32)) (ho : Has32 m o vo) (ha : Has32 m a va)
    (hla : va.length = vo.length) (hn : vo.length < 2 ^ 60) (fa : Alias 32 a o) :
    ∃ m', scalarMulTo32 F o a c g y m (some m') ∧ Has32 m' o (va.map (c * ·)) ∧ Outside32 m m' o := by
  obtain ⟨ho1, ho2⟩ := holds32 ho
  obtain ⟨ha1, ha2⟩ := holds32 ha
  rw [hla] at ha1 ha2
  rw [alias32] at fa
  rw [ha1, ho1] at fa
  have h := scalarMulToUint32AVX2_spec (F := F) (c1 := o.cap) (c2 := a.cap) hn g y m c ho2 ha2 (ahead_of fa (by omega))
  refine ⟨_, ⟨by simp [checkLength, ho1, ha1], by simpa [GoSlice.arg, ho1, ha1] using h⟩,
    has32_over ho ho1 hn (by simp [hla]) (fun i hi => ?_), outside32_over ho1⟩
  have q : i < vo.length := by simpa [hla] using hi
  simp [q, hla]

/-- `ScalarMulAddTo` on `uint32`. -/
theorem C65_scalarMulAddTo32 (F : Fpu) (g : Reg → BitVec 64) (y : Nat → Y) (m : Memory) (o a : GoSlice)
    (c : BitVec 32) (vo va : List (BitVec 32)) (ho : Has32 m o vo) (ha : Has32 m a va)
    (hla : va.length = vo.length) (hn : vo.length < 2 ^ 60) (fa : Alias 32 a o) :
    ∃ m', scalarMulAddTo32 F o a c g y m (some m') ∧ Has32 m' o (List.zipWith (fun o a => o + c * a) vo va) ∧ Outside32 m m' o := by
  obtain ⟨ho1, ho2⟩ := holds32 ho
  obtain ⟨ha1, ha2⟩ := holds32 ha
  rw [hla] at ha1 ha2
  rw [alias32] at fa
  rw [ha1, ho1] at fa
  have h := scalarMulAddToUint32AVX2_spec (F := F) (c1 := o.cap) (c2 := a.cap) hn g y m c ho2 ha2 (ahead_of fa (by omega))
  refine ⟨_, ⟨by simp [checkLength, ho1, ha1], by simpa [GoSlice.arg, ho1, ha1] using h⟩,
    has32_over ho ho1 hn (by simp [hla]) (fun i hi => ?_), outside32_over ho1⟩
  have q : i < vo.length := by simpa [hla] using hi
  simp [q, hla]

/-- `ScalarMulSubTo` on `uint32`. -/
theorem C65_scalarMulSubTo32 (F : Fpu) (g : Reg → BitVec 64) (y : Nat → Y) (m : Memory) (o a : GoSlice)
    (c : BitVec 32) (vo va : List (BitVec 32)) (ho : Has32 m o vo) (ha : Has32 m a va)
    (hla : va.length = vo.length) (hn : vo.length < 2 ^ 60) (fa : Alias 32 a o) :
    ∃ m', scalarMulSubTo32 F o a c g y m (some m') ∧ Has32 m' o (List.zipWith (fun o a => o - c * a) vo va) ∧ Outside32 m m' o := by
  obtain ⟨ho1, ho2⟩ := holds32 ho
  obtain ⟨ha1, ha2⟩ := holds32 ha
  rw [hla] at ha1 ha2
  rw [alias32] at fa
  rw [ha1, ho1] at fa
  have h := scalarMulSubToUint32AVX2_spec (F := F) (c1 := o.cap) (c2 := a.cap) hn g y m c ho2 ha2 (ahead_of fa (by omega))
  refine ⟨_, ⟨by simp [checkLength, ho1, ha1], by simpa [GoSlice.arg, ho1, ha1] using h⟩,
    has32_over ho ho1 hn (by simp [hla]) (fun i hi => ?_), outside32_over ho1⟩
  have q : i < vo.length := by simpa [hla] using hi
  simp [q, hla]

/-- `MulTo` on `uint32`. -/
theorem C65_mulTo32 (F : Fpu) (g : Reg → BitVec 64) (y : Nat → Y) (m : Memory) (o a b : GoSlice)
    (vo va vb : List (BitVec 32)) (ho : Has32 m o vo) (ha : Has32 m a va) (hb : Has32 m b vb)
    (hla : va.length = vo.length) (hlb : vb.length = vo.length) (hn : vo.length < 2 ^ 60)
    (fa : Alias 32 a o) (fb : Alias 32 b o) :
    ∃ m', mulTo32 F o a b g y m (some m') ∧ Has32 m' o (List.zipWith (· * ·) va vb) ∧ Outside32 m m' o := by
  obtain ⟨ho1, ho2⟩ := holds32 ho
  obtain ⟨ha1, ha2⟩ := holds32 ha
  obtain ⟨hb1, hb2⟩ := holds32 hb
  rw [hla] at ha1 ha2
  rw [hlb] at hb1 hb2
  rw [alias32] at fa fb
  rw [ha1, ho1] at fa
  rw [hb1, ho1] at fb
  have h := mulToUint32AVX2_spec (F := F) (c1 := o.cap) (c2 := a.cap) (c3 := b.cap) hn g y m ho2 ha2 hb2
    (ahead_of fa (by omega)) (ahead_of fb (by omega))
  refine ⟨_, ⟨by simp [checkLength, ho1, ha1, hb1], by simpa [GoSlice.arg, ho1, ha1, hb1] using h⟩,
    has32_over ho ho1 hn (by simp [hla, hlb]) (fun i hi => ?_), outside32_over ho1⟩
  have q : i < vo.length := by simpa [hla, hlb] using hi
  simp [q, hla, hlb]

/-- `MulAddTo` on `uint32`. -/
theorem C65_mulAddTo32 (F : Fpu) (g : Reg → BitVec 64) (y : Nat → Y) (m : Memory) (o a b : GoSlice)
    (vo va vb : List (BitVec 32)) (ho : Has32 m o vo) (ha : Has32 m a va) (hb : Has32 m b vb)
    (hla : va.length = vo.length) (hlb : vb.length = vo.length) (hn : vo.length < 2 ^ 60)
    (fa : Alias 32 a o) (fb : Alias 32 b o) :
    ∃ m', mulAddTo32 F o a b g y m (some m') ∧ Has32 m' o (List.zipWith (· + ·) vo (List.zipWith (· * ·) va vb)) ∧ Outside32 m m' o := by
  obtain ⟨ho1, ho2⟩ := holds32 ho
  obtain ⟨ha1, ha2⟩ := holds32 ha
  obtain ⟨hb1, hb2⟩ := holds32 hb
  rw [hla] at ha1 ha2
  rw [hlb] at hb1 hb2
  rw [alias32] at fa fb
  rw [ha1, ho1] at fa
  rw [hb1, ho1] at fb
  have h := mulAddToUint32AVX2_spec (F := F) (c1 := o.cap) (c2 := a.cap) (c3 := b.cap) hn g y m ho2 ha2 hb2
    (ahead_of fa (by omega)) (ahead_of fb (by omega))
  refine ⟨_, ⟨by simp [checkLength, ho1, ha1, hb1], by simpa [GoSlice.arg, ho1, ha1, hb1] using h⟩,
    has32_over ho ho1 hn (by simp [hla, hlb]) (fun i hi => ?_), outside32_over ho1⟩
  have q : i < vo.length := by simpa [hla, hlb] using hi
  simp [q, hla, hlb]

/-- `MulSubTo` on `uint32`. -/
theorem C65_mulSubTo32 (F : Fpu) (g : Reg → BitVec 64) (y : Nat → Y) (m : Memory) (o a b : GoSlice)
    (vo va vb : List (BitVec 32)) (ho : Has32 m o vo) (ha : Has32 m a va) (hb : Has32 m b vb)
    (hla : va.length = vo.length) (hlb : vb.length = vo.length) (hn : vo.length < 2 ^ 60)
    (fa : Alias 32 a o) (fb : Alias 32 b o) :
    ∃ m', mulSubTo32 F o a b g y m (some m') ∧ Has32 m' o (List.zipWith (· - ·) vo (List.zipWith (· * ·) va vb)) ∧ Outside32 m m' o := by
  obtain ⟨ho1, ho2⟩ := holds32 ho
  obtain ⟨ha1, ha2⟩ := holds32 ha
  obtain ⟨hb1, hb2⟩ := holds32 hb
  rw [hla] at ha1 ha2
  rw [hlb] at hb1 hb2
  rw [alias32] at fa fb
  rw [ha1, ho1] at fa
  rw [hb1, ho1] at fb
  have h := mulSubToUint32AVX2_spec (F := F) (c1 := o.cap) (c2 := a.cap) (c3 := b.cap) hn g y m ho2 ha2 hb2
    (ahead_of fa (by omega)) (ahead_of fb (by omega))
  refine ⟨_, ⟨by simp [checkLength, ho1, ha1, hb1], by simpa [GoSlice.arg, ho1, ha1, hb1] using h⟩,
    has32_over ho ho1 hn (by simp [hla, hlb]) (fun i hi => ?_), outside32_over ho1⟩
  have q : i < vo.length := by simpa [hla, hlb] using hi
  simp [q, hla, hlb]

/-- `AddTo` on `uint64`. -/
theorem C65_addTo64 (F : Fpu) (g : Reg → BitVec 64) (y : Nat → Y) (m : Memory) (o a b : GoSlice)
    (vo va vb : List (BitVec 64)) (ho : Has64 m o vo) (ha : Has64 m a va) (hb : Has64 m b vb)
    (hla : va.length = vo.length) (hlb : vb.length = vo.length) (hn : vo.length < 2 ^ 60)
    (fa : Alias 64 a o) (fb : Alias 64 b o) :
    ∃ m', addTo64 F o a b g y m (some m') ∧ Has64 m' o (List.zipWith (· + ·) va vb) ∧ Outside64 m m' o := by
  obtain ⟨ho1, ho2⟩ := holds64 ho
  obtain ⟨ha1, ha2⟩ := holds64 ha
  obtain ⟨hb1, hb2⟩ := holds64 hb
  rw [hla] at ha1 ha2
  rw [hlb] at hb1 hb2
  rw [alias64] at fa fb
  rw [ha1, ho1] at fa
  rw [hb1, ho1] at fb
  have h := addToUint64AVX2_spec (F := F) (c1 := o.cap) (c2 := a.cap) (c3 := b.cap) hn g y m ho2 ha2 hb2
    (ahead_of fa (by omega)) (ahead_of fb (by omega))
  refine ⟨_, ⟨by simp [checkLength, ho1, ha1, hb1], by simpa [GoSlice.arg, ho1, ha1, hb1] using h⟩,
    has64_over ho ho1 hn (by simp [hla, hlb]) (fun i hi => ?_), outside64_over ho1⟩
  have q : i < vo.length := by simpa [hla, hlb] using hi
  simp [q, hla, hlb]

/-- `SubTo` on `uint64`. -/
theorem C65_subTo64 (F : Fpu) (g : Reg → BitVec 64) (y : Nat → Y) (m : Memory) (o a b : GoSlice)
    (vo va vb : List (BitVec 64)) (ho : Has64 m o vo) (ha : Has64 m a va) (hb : Has64 m b vb)
    (hla : va.length = vo.length) (hlb : vb.length = vo.length) (hn : vo.length < 2 ^ 60)
    (fa : Alias 64 a o) (fb : Alias 64 b o) :
    ∃ m', subTo64 F o a b g y m (some m') ∧ Has64 m' o (List.zipWith (· - ·) va vb) ∧ Outside64 m m' o := by
  obtain ⟨ho1, ho2⟩ := holds64 ho
  obtain ⟨ha1, ha2⟩ := holds64 ha
  obtain ⟨hb1, hb2⟩ := holds64 hb
  rw [hla] at ha1 ha2
  rw [hlb] at hb1 hb2
  rw [alias64] at fa fb
  rw [ha1, ho1] at fa
  rw [hb1, ho1] at fb
  have h := subToUint64AVX2_spec (F := F) (c1 := o.cap) (c2 := a.cap) (c3 := b.cap) hn g y m ho2 ha2 hb2
    (ahead_of fa (by omega)) (ahead_of fb (by omega))
  refine ⟨_, ⟨by simp [checkLength, ho1, ha1, hb1], by simpa [GoSlice.arg, ho1, ha1, hb1] using h⟩,
    has64_over ho ho1 hn (by simp [hla, hlb]) (fun i hi => ?_), outside64_over ho1⟩
  have q : i < vo.length := by simpa [hla, hlb] using hi
  simp [q, hla, hlb]

/-- `ScalarMulTo` on `uint64`. -/
theorem C65_scalarMulTo64 (F : Fpu) (g : Reg → BitVec 64) (y : Nat → Y) (m : Memory) (o a : GoSlice)
    (c : BitVec 64) (vo va : List (BitVec 64)) (ho : Has64 m o vo) (ha : Has64 m a va)
    (hla : va.length = vo.length) (hn : vo.length < 2 ^ 60) (fa : Alias 64 a o) :
    ∃ m', scalarMulTo64 F o a c g y m (some m') ∧ Has64 m' o (va.map (c * ·)) ∧ Outside64 m m' o := by
  obtain ⟨ho1, ho2⟩ := holds64 ho
  obtain ⟨ha1, ha2⟩ := holds64 ha
  rw [hla] at ha1 ha2
  rw [alias64] at fa
  rw [ha1, ho1] at fa
  have h := scalarMulToUint64AVX2_spec (F := F) (c1 := o.cap) (c2 := a.cap) hn g y m c ho2 ha2 (ahead_of fa (by omega))
  refine ⟨_, ⟨by simp [checkLength, ho1, ha1], by simpa [GoSlice.arg, ho1, ha1] using h⟩,
    has64_over ho ho1 hn (by simp [hla]) (fun i hi => ?_), outside64_over ho1⟩
  have q : i < vo.length := by simpa [hla] using hi
  simp [q, hla]

/-- `ScalarMulAddTo` on `uint64`. -/
theorem C65_scalarMulAddTo64 (F : Fpu) (g : Reg → BitVec 64) (y : Nat → Y) (m : Memory) (o a : GoSlice)
    (c : BitVec 64) (vo va : List (BitVec 64)) (ho : Has64 m o vo) (ha : Has64 m a va)
    (hla : va.length = vo.length) (hn : vo.length < 2 ^ 60) (fa : Alias 64 a o) :
    ∃ m', scalarMulAddTo64 F o a c g y m (some m') ∧ Has64 m' o (List.zipWith (fun o a => o + c * a) vo va) ∧ Outside64 m m' o := by
  obtain ⟨ho1, ho2⟩ := holds64 ho
  obtain ⟨ha1, ha2⟩ := holds64 ha
  rw [hla] at ha1 ha2
  rw [alias64] at fa
  rw [ha1, ho1] at fa
  have h := scalarMulAddToUint64AVX2_spec (F := F) (c1 := o.cap) (c2 := a.cap) hn g y m c ho2 ha2 (ahead_of fa (by omega))
  refine ⟨_, ⟨by simp [checkLength, ho1, ha1], by simpa [GoSlice.arg, ho1, ha1] using h⟩,
    has64_over ho ho1 hn (by simp [hla]) (fun i hi => ?_), outside64_over ho1⟩
  have q : i < vo.length := by simpa [hla] using hi
  simp [q, hla]

/-- `ScalarMulSubTo` on `uint64`. -/
theorem C65_scalarMulSubTo64 (F : Fpu) (g : Reg → BitVec 64) (y : Nat → Y) (m : Memory) (o a : GoSlice)
    (c : BitVec 64) (vo va : List (BitVec 64)) (ho : Has64 m o vo) (ha : Has64 m a va)
    (hla : va.length = vo.length) (hn : vo.length < 2 ^ 60) (fa : Alias 64 a o) :
    ∃ m', scalarMulSubTo64 F o a c g y m (some m') ∧ Has64 m' o (List.zipWith (fun o a => o - c * a) vo va) ∧ Outside64 m m' o := by
  obtain ⟨ho1, ho2⟩ := holds64 ho
  obtain ⟨ha1, ha2⟩ := holds64 ha
  rw [hla] at ha1 ha2
  rw [alias64] at fa
  rw [ha1, ho1] at fa
  have h := scalarMulSubToUint64AVX2_spec (F := F) (c1 := o.cap) (c2 := a.cap) hn g y m c ho2 ha2 (ahead_of fa (by omega))
  refine ⟨_, ⟨by simp [checkLength, ho1, ha1], by simpa [GoSlice.arg, ho1, ha1] using h⟩,
    has64_over ho ho1 hn (by simp [hla]) (fun i hi => ?_), outside64_over ho1⟩
  have q : i < vo.length := by simpa [hla] using hi
  simp [q, hla]

/-- `MulTo` on `uint64`. -/
theorem C65_mulTo64 (F : Fpu) (g : Reg → BitVec 64) (y : Nat → Y) (m : Memory) (o a b : GoSlice)
    (vo va vb : List (BitVec 64)) (ho : Has64 m o vo) (ha : Has64 m a va) (hb : Has64 m b vb)
    (hla : va.length = vo.length) (hlb : vb.length = vo.length) (hn : vo.length < 2 ^ 60)
    (fa : Alias 64 a o) (fb : Alias 64 b o) :
    ∃ m', mulTo64 F o a b g y m (some m') ∧ Has64 m' o (List.zipWith (· * ·) va vb) ∧ Outside64 m m' o := by
  obtain ⟨ho1, ho2⟩ := holds64 ho
  obtain ⟨ha1, ha2⟩ := holds64 ha
  obtain ⟨hb1, hb2⟩ := holds64 hb
  rw [hla] at ha1 ha2
  rw [hlb] at hb1 hb2
  rw [alias64] at fa fb
  rw [ha1, ho1] at fa
  rw [hb1, ho1] at fb
  have h := mulToUint64AVX2_spec (F := F) (c1 := o.cap) (c2 := a.cap) (c3 := b.cap) hn g y m ho2 ha2 hb2
    (ahead_of fa (by omega)) (ahead_of fb (by omega))
  refine ⟨_, ⟨by simp [checkLength, ho1, ha1, hb1], by simpa [GoSlice.arg, ho1, ha1, hb1] using h⟩,
    has64_over ho ho1 hn (by simp [hla, hlb]) (fun i hi => ?_), outside64_over ho1⟩
  have q : i < vo.length := by simpa [hla, hlb] using hi
  simp [q, hla, hlb]

/-- `MulAddTo` on `uint64`. -/
theorem C65_mulAddTo64 (F : Fpu) (g : Reg → BitVec 64) (y : Nat → Y) (m : Memory) (o a b : GoSlice)
    (vo va vb : List (BitVec 64)) (ho : Has64 m o vo) (ha : Has64 m a va) (hb : Has64 m b vb)
    (hla : va.length = vo.length) (hlb : vb.length = vo.length) (hn : vo.length < 2 ^ 60)
    (fa : Alias 64 a o) (fb : Alias 64 b o) :
    ∃ m', mulAddTo64 F o a b g y m (some m') ∧ Has64 m' o (List.zipWith (· + ·) vo (List.zipWith (· * ·) va vb)) ∧ Outside64 m m' o := by
  obtain ⟨ho1, ho2⟩ := holds64 ho
  obtain ⟨ha1, ha2⟩ := holds64 ha
  obtain ⟨hb1, hb2⟩ := holds64 hb
  rw [hla] at ha1 ha2
  rw [hlb] at hb1 hb2
  rw [alias64] at fa fb
  rw [ha1, ho1] at fa
  rw [hb1, ho1] at fb
  have h := mulAddToUint64AVX2_spec (F := F) (c1 := o.cap) (c2 := a.cap) (c3 := b.cap) hn g y m ho2 ha2 hb2
    (ahead_of fa (by omega)) (ahead_of fb (by omega))
  refine ⟨_, ⟨by simp [checkLength, ho1, ha1, hb1], by simpa [GoSlice.arg, ho1, ha1, hb1] using h⟩,
    has64_over ho ho1 hn (by simp [hla, hlb]) (fun i hi => ?_), outside64_over ho1⟩
  have q : i < vo.length := by simpa [hla, hlb] using hi
  simp [q, hla, hlb]

/-- `MulSubTo` on `uint64`. -/
theorem C65_mulSubTo64 (F : Fpu) (g : Reg → BitVec 64) (y : Nat → Y) (m : Memory) (o a b : GoSlice)
    (vo va vb : List (BitVec 64)) (ho : Has64 m o vo) (ha : Has64 m a va) (hb : Has64 m b vb)
    (hla : va.length = vo.length) (hlb : vb.length = vo.length) (hn : vo.length < 2 ^ 60)
    (fa : Alias 64 a o) (fb : Alias 64 b o) :
    ∃ m', mulSubTo64 F o a b g y m (some m') ∧ Has64 m' o (List.zipWith (· - ·) vo (List.zipWith (· * ·) va vb)) ∧ Outside64 m m' o := by
  obtain ⟨ho1, ho2⟩ := holds64 ho
  obtain ⟨ha1, ha2⟩ := holds64 ha
  obtain ⟨hb1, hb2⟩ := holds64 hb
  rw [hla] at ha1 ha2
  rw [hlb] at hb1 hb2
  rw [alias64] at fa fb
  rw [ha1, ho1] at fa
  rw [hb1, ho1] at fb
  have h := mulSubToUint64AVX2_spec (F := F) (c1 := o.cap) (c2 := a.cap) (c3 := b.cap) hn g y m ho2 ha2 hb2
    (ahead_of fa (by omega)) (ahead_of fb (by omega))
  refine ⟨_, ⟨by simp [checkLength, ho1, ha1, hb1], by simpa [GoSlice.arg, ho1, ha1, hb1] using h⟩,
    has64_over ho ho1 hn (by simp [hla, hlb]) (fun i hi => ?_), outside64_over ho1⟩
  have q : i < vo.length := by simpa [hla, hlb] using hi
  simp [q, hla, hlb]

/-! ### Panics and determinism -/

/-- With slices of different lengths a call panics, and writes nothing. -/
theorem C65_panics (F : Fpu) (P : Prog) (s : GoSlice) (ss : List GoSlice) (sc : List (BitVec 32))
    (g : Reg → BitVec 64) (y : Nat → Y) (m : Memory) (h : ∃ t ∈ ss, t.len ≠ s.len) (r : Option Memory) :
    avxCall F P (s :: ss) sc g y m r ↔ r = none := by
  have hc : checkLength ((s :: ss).map (·.len)) = none := by
    simpa [checkLength] using h
  cases r with
  | none => exact iff_of_true hc rfl
  | some m' => simp only [avxCall, hc, reduceCtorEq, false_and]

theorem steps_ret {F : Fpu} {P : Prog} {fp : List (BitVec 32)} {s : St} (h : s.ret = true) (n : Nat) :
    steps F P fp n s = some s := by
  induction n with
  | zero => rfl
  | succ n ih => simp [steps, step, h, ih]

/-- A call has one outcome: it cannot return two different memories, nor both return and panic. -/
theorem C65_deterministic (F : Fpu) (P : Prog) (ss : List GoSlice) (sc : List (BitVec 32))
    (g : Reg → BitVec 64) (y : Nat → Y) (m : Memory) (r r' : Option Memory)
    (h : avxCall F P ss sc g y m r) (h' : avxCall F P ss sc g y m r') : r = r' := by
  cases r with
  | none =>
    cases r' with
    | none => rfl
    | some m' => have := h'.1; rw [show checkLength _ = none from h] at this; simp at this
  | some m1 =>
    cases r' with
    | none => have := h.1; rw [show checkLength _ = none from h'] at this; simp at this
    | some m2 =>
      obtain ⟨-, n1, t1, e1, r1, rfl⟩ := h
      obtain ⟨-, n2, t2, e2, r2, rfl⟩ := h'
      have a1 := steps_add (F := F) (P := P) (fp := ss.flatMap GoSlice.arg ++ sc) n1 n2 (entry g y m)
      have a2 := steps_add (F := F) (P := P) (fp := ss.flatMap GoSlice.arg ++ sc) n2 n1 (entry g y m)
      rw [e1, Option.bind_some, steps_ret r1] at a1
      rw [e2, Option.bind_some, steps_ret r2, Nat.add_comm, a1] at a2
      rw [Option.some.inj a2]

/-! ### Agreement with the pure Go loops

`S` gives the slice of each vector that the memory of the Go model names.  Two names have either the same
slice or slices without a common word. -/

/-- Machine memory `m` represents the vectors of length `n` of the Go-level memory `M`. -/
def Sim32 (n : Nat) (S : Nat → Option GoSlice) (m : Memory) (M : Mem (BitVec 32)) : Prop :=
  (∀ v s, S v = some s → Has32 m s ((List.range n).map (M v))) ∧
    ∀ u v s t, S u = some s → S v = some t → u ≠ v → ∀ i < n, ∀ j < n,
      s.base + BitVec.ofNat 64 (4 * i) ≠ t.base + BitVec.ofNat 64 (4 * j)

/-- The same for `uint64`. -/
def Sim64 (n : Nat) (S : Nat → Option GoSlice) (m : Memory) (M : Mem (BitVec 64)) : Prop :=
  (∀ v s, S v = some s → Has64 m s ((List.range n).map (M v))) ∧
    ∀ u v s t, S u = some s → S v = some t → u ≠ v → ∀ i < 2 * n, ∀ j < 2 * n,
      s.base + BitVec.ofNat 64 (4 * i) ≠ t.base + BitVec.ofNat 64 (4 * j)

theorem Sim32.alias {n : Nat} {S : Nat → Option GoSlice} {m : Memory} {M : Mem (BitVec 32)} (h : Sim32 n S m M)
    {o a : Nat} {so sa : GoSlice} (ho : S o = some so) (ha : S a = some sa) : Alias 32 sa so := by
  have l1 : so.len = n := by simpa using (h.1 o so ho).1
  have l2 : sa.len = n := by simpa using (h.1 a sa ha).1
  rw [alias32, l1, l2]
  by_cases e : a = o
  · subst e; rw [ho] at ha; exact .inl (by rw [Option.some.inj ha])
  · exact .inr (h.2 a o sa so ha ho e)

theorem Sim64.alias {n : Nat} {S : Nat → Option GoSlice} {m : Memory} {M : Mem (BitVec 64)} (h : Sim64 n S m M)
    {o a : Nat} {so sa : GoSlice} (ho : S o = some so) (ha : S a = some sa) : Alias 64 sa so := by
  have l1 : so.len = n := by simpa using (h.1 o so ho).1
  have l2 : sa.len = n := by simpa using (h.1 a sa ha).1
  rw [alias64, l1, l2]
  by_cases e : a = o
  · subst e; rw [ho] at ha; exact .inl (by rw [Option.some.inj ha])
  · exact .inr (h.2 a o sa so ha ho e)

theorem Sim32.step {n : Nat} {S : Nat → Option GoSlice} {m m' : Memory} {M M' : Mem (BitVec 32)}
    (h : Sim32 n S m M) {o : Nat} {so : GoSlice} {r : List (BitVec 32)} (ho : S o = some so)
    (h1 : Has32 m' so r) (h2 : Outside32 m m' so) (h3 : ∀ i < n, M' o i = r.getD i 0)
    (h4 : ∀ v i, v ≠ o ∨ n ≤ i → M' v i = M v i) : Sim32 n S m' M' := by
  have l1 : so.len = n := by simpa using (h.1 o so ho).1
  refine ⟨fun v s hs => ?_, h.2⟩
  by_cases e : v = o
  · subst e
    rw [ho] at hs; cases hs
    have hr : (List.range n).map (M' v) = r := by
      have := h1.1
      refine List.ext_getElem (by simp; omega) fun i hi hi' => ?_
      have hin : i < n := by omega
      simp [h3 i hin, hi']
    rw [hr]; exact h1
  · have hv : (List.range n).map (M' v) = (List.range n).map (M v) :=
      List.map_congr_left fun i _ => h4 v i (.inl e)
    rw [hv]
    obtain ⟨k1, k2, k3⟩ := h.1 v s hs
    refine ⟨k1, k2, fun i hi => ?_⟩
    rw [h2, k3 i hi]
    intro j hj
    exact h.2 v o s so hs ho e i (by simpa using hi) j (by omega)

theorem Sim64.step {n : Nat} {S : Nat → Option GoSlice} {m m' : Memory} {M M' : Mem (BitVec 64)}
    (h : Sim64 n S m M) {o : Nat} {so : GoSlice} {r : List (BitVec 64)} (ho : S o = some so)
    (h1 : Has64 m' so r) (h2 : Outside64 m m' so) (h3 : ∀ i < n, M' o i = r.getD i 0)
    (h4 : ∀ v i, v ≠ o ∨ n ≤ i → M' v i = M v i) : Sim64 n S m' M' := by
  have l1 : so.len = n := by simpa using (h.1 o so ho).1
  refine ⟨fun v s hs => ?_, h.2⟩
  by_cases e : v = o
  · subst e
    rw [ho] at hs; cases hs
    have hr : (List.range n).map (M' v) = r := by
      have := h1.1
      refine List.ext_getElem (by simp; omega) fun i hi hi' => ?_
      have hin : i < n := by omega
      simp [h3 i hin, hi']
    rw [hr]; exact h1
  · have hv : (List.range n).map (M' v) = (List.range n).map (M v) :=
      List.map_congr_left fun i _ => h4 v i (.inl e)
    rw [hv]
    obtain ⟨k1, k2, k3⟩ := h.1 v s hs
    refine ⟨k1, k2, fun i hi => ?_⟩
    have hin : i < n := by simpa using hi
    obtain ⟨q1, q2⟩ := k3 i hi
    refine ⟨?_, ?_⟩
    · rw [h2, q1]
      intro j hj
      have d1 := h.2 v o s so hs ho e (2 * i) (by omega) (2 * j) (by omega)
      have d2 := h.2 v o s so hs ho e (2 * i) (by omega) (2 * j + 1) (by omega)
      rw [show 4 * (2 * i) = 8 * i by omega] at d1 d2
      rw [show 4 * (2 * j) = 8 * j by omega] at d1
      rw [show 4 * (2 * j + 1) = 8 * j + 4 by omega] at d2
      exact ⟨d1, d2⟩
    · rw [h2, q2]
      intro j hj
      have d1 := h.2 v o s so hs ho e (2 * i + 1) (by omega) (2 * j) (by omega)
      have d2 := h.2 v o s so hs ho e (2 * i + 1) (by omega) (2 * j + 1) (by omega)
      rw [show 4 * (2 * i + 1) = 8 * i + 4 by omega] at d1 d2
      rw [show 4 * (2 * j) = 8 * j by omega] at d1
      rw [show 4 * (2 * j + 1) = 8 * j + 4 by omega] at d2
      exact ⟨d1, d2⟩

theorem C65_sim_addTo32 (F : Fpu) (g : Reg → BitVec 64) (y : Nat → Y) (m : Memory) (n : Nat) (hn : n < 2 ^ 60)
    (S : Nat → Option GoSlice) (M : Mem (BitVec 32)) (hS : Sim32 n S m M) (o a b : Nat) (so sa sb : GoSlice)
    (ho : S o = some so) (ha : S a = some sa) (hb : S b = some sb) :
    ∃ m', addTo32 F so sa sb g y m (some m') ∧ Sim32 n S m' (vecAddTo n o a b M) := by
  obtain ⟨m', h1, h2, h3⟩ := C65_addTo32 F g y m so sa sb _ _ _ (hS.1 o so ho) (hS.1 a sa ha) (hS.1 b sb hb)
    (by simp) (by simp) (by simpa using hn) (hS.alias ho ha) (hS.alias ho hb)
  refine ⟨m', h1, hS.step ho h2 h3 (fun i hi => ?_) ?_⟩
  · rw [vecAddTo, (mapLoop_whole _ o a b n _ (nodup_unrolledIdx _) (mem_unrolledIdx _) M).1 i hi]; simp [hi]
  · exact (mapLoop_whole _ o a b n _ (nodup_unrolledIdx _) (mem_unrolledIdx _) M).2

theorem C65_sim_subTo32 (F : Fpu) (g : Reg → BitVec 64) (y : Nat → Y) (m : Memory) (n : Nat) (hn : n < 2 ^ 60)
    (S : Nat → Option GoSlice) (M : Mem (BitVec 32)) (hS : Sim32 n S m M) (o a b : Nat) (so sa sb : GoSlice)
    (ho : S o = some so) (ha : S a = some sa) (hb : S b = some sb) :
    ∃ m', subTo32 F so sa sb g y m (some m') ∧ Sim32 n S m' (vecSubTo n o a b M) := by
  obtain ⟨m', h1, h2, h3⟩ := C65_subTo32 F g y m so sa sb _ _ _ (hS.1 o so ho) (hS.1 a sa ha) (hS.1 b sb hb)
    (by simp) (by simp) (by simpa using hn) (hS.alias ho ha) (hS.alias ho hb)
  refine ⟨m', h1, hS.step ho h2 h3 (fun i hi => ?_) ?_⟩
  · rw [vecSubTo, (mapLoop_whole _ o a b n _ (nodup_unrolledIdx _) (mem_unrolledIdx _) M).1 i hi]; simp [hi]
  · exact (mapLoop_whole _ o a b n _ (nodup_unrolledIdx _) (mem_unrolledIdx _) M).2

theorem C65_sim_scalarMulTo32 (F : Fpu) (g : Reg → BitVec 64) (y : Nat → Y) (m : Memory) (n : Nat) (hn : n < 2 ^ 60)
    (S : Nat → Option GoSlice) (M : Mem (BitVec 32)) (hS : Sim32 n S m M) (o a : Nat) (so sa : GoSlice)
    (c : BitVec 32) (ho : S o = some so) (ha : S a = some sa) :
    ∃ m', scalarMulTo32 F so sa c g y m (some m') ∧ Sim32 n S m' (vecScalarMulTo n o a c M) := by
  obtain ⟨m', h1, h2, h3⟩ := C65_scalarMulTo32 F g y m so sa c _ _ (hS.1 o so ho) (hS.1 a sa ha)
    (by simp) (by simpa using hn) (hS.alias ho ha)
  refine ⟨m', h1, hS.step ho h2 h3 (fun i hi => ?_) ?_⟩
  · rw [vecScalarMulTo, (mapLoop_whole _ o a a n _ (nodup_unrolledIdx _) (mem_unrolledIdx _) M).1 i hi]; simp [hi]
  · exact (mapLoop_whole _ o a a n _ (nodup_unrolledIdx _) (mem_unrolledIdx _) M).2

theorem C65_sim_scalarMulAddTo32 (F : Fpu) (g : Reg → BitVec 64) (y : Nat → Y) (m : Memory) (n : Nat) (hn : n < 2 ^ 60)
    (S : Nat → Option GoSlice) (M : Mem (BitVec 32)) (hS : Sim32 n S m M) (o a : Nat) (so sa : GoSlice)
    (c : BitVec 32) (ho : S o = some so) (ha : S a = some sa) :
    ∃ m', scalarMulAddTo32 F so sa c g y m (some m') ∧ Sim32 n S m' (vecScalarMulAddTo n o a c M) := by
  obtain ⟨m', h1, h2, h3⟩ := C65_scalarMulAddTo32 F g y m so sa c _ _ (hS.1 o so ho) (hS.1 a sa ha)
    (by simp) (by simpa using hn) (hS.alias ho ha)
  refine ⟨m', h1, hS.step ho h2 h3 (fun i hi => ?_) ?_⟩
  · rw [vecScalarMulAddTo, (mapLoop_whole _ o a a n _ (nodup_unrolledIdx _) (mem_unrolledIdx _) M).1 i hi]; simp [hi]
  · exact (mapLoop_whole _ o a a n _ (nodup_unrolledIdx _) (mem_unrolledIdx _) M).2

theorem C65_sim_scalarMulSubTo32 (F : Fpu) (g : Reg → BitVec 64) (y : Nat → Y) (m : Memory) (n : Nat) (hn : n < 2 ^ 60)
    (S : Nat → Option GoSlice) (M : Mem (BitVec 32)) (hS : Sim32 n S m M) (o a : Nat) (so sa : GoSlice)
    (c : BitVec 32) (ho : S o = some so) (ha : S a = some sa) :
    ∃ m', scalarMulSubTo32 F so sa c g y m (some m') ∧ Sim32 n S m' (vecScalarMulSubTo n o a c M) := by
  obtain ⟨m', h1, h2, h3⟩ := C65_scalarMulSubTo32 F g y m so sa c _ _ (hS.1 o so ho) (hS.1 a sa ha)
    (by simp) (by simpa using hn) (hS.alias ho ha)
  refine ⟨m', h1, hS.step ho h2 h3 (fun i hi => ?_) ?_⟩
  · rw [vecScalarMulSubTo, (mapLoop_whole _ o a a n _ (nodup_unrolledIdx _) (mem_unrolledIdx _) M).1 i hi]; simp [hi]
  · exact (mapLoop_whole _ o a a n _ (nodup_unrolledIdx _) (mem_unrolledIdx _) M).2

theorem C65_sim_mulTo32 (F : Fpu) (g : Reg → BitVec 64) (y : Nat → Y) (m : Memory) (n : Nat) (hn : n < 2 ^ 60)
    (S : Nat → Option GoSlice) (M : Mem (BitVec 32)) (hS : Sim32 n S m M) (o a b : Nat) (so sa sb : GoSlice)
    (ho : S o = some so) (ha : S a = some sa) (hb : S b = some sb) :
    ∃ m', mulTo32 F so sa sb g y m (some m') ∧ Sim32 n S m' (vecMulTo n o a b M) := by
  obtain ⟨m', h1, h2, h3⟩ := C65_mulTo32 F g y m so sa sb _ _ _ (hS.1 o so ho) (hS.1 a sa ha) (hS.1 b sb hb)
    (by simp) (by simp) (by simpa using hn) (hS.alias ho ha) (hS.alias ho hb)
  refine ⟨m', h1, hS.step ho h2 h3 (fun i hi => ?_) ?_⟩
  · rw [vecMulTo, (mapLoop_whole _ o a b n _ (nodup_unrolledIdx _) (mem_unrolledIdx _) M).1 i hi]; simp [hi]
  · exact (mapLoop_whole _ o a b n _ (nodup_unrolledIdx _) (mem_unrolledIdx _) M).2

theorem C65_sim_mulAddTo32 (F : Fpu) (g : Reg → BitVec 64) (y : Nat → Y) (m : Memory) (n : Nat) (hn : n < 2 ^ 60)
    (S : Nat → Option GoSlice) (M : Mem (BitVec 32)) (hS : Sim32 n S m M) (o a b : Nat) (so sa sb : GoSlice)
    (ho : S o = some so) (ha : S a = some sa) (hb : S b = some sb) :
    ∃ m', mulAddTo32 F so sa sb g y m (some m') ∧ Sim32 n S m' (vecMulAddTo n o a b M) := by
  obtain ⟨m', h1, h2, h3⟩ := C65_mulAddTo32 F g y m so sa sb _ _ _ (hS.1 o so ho) (hS.1 a sa ha) (hS.1 b sb hb)
    (by simp) (by simp) (by simpa using hn) (hS.alias ho ha) (hS.alias ho hb)
  refine ⟨m', h1, hS.step ho h2 h3 (fun i hi => ?_) ?_⟩
  · rw [vecMulAddTo, (mapLoop_whole _ o a b n _ (nodup_unrolledIdx _) (mem_unrolledIdx _) M).1 i hi]; simp [hi]
  · exact (mapLoop_whole _ o a b n _ (nodup_unrolledIdx _) (mem_unrolledIdx _) M).2

theorem C65_sim_mulSubTo32 (F : Fpu) (g : Reg → BitVec 64) (y : Nat → Y) (m : Memory) (n : Nat) (hn : n < 2 ^ 60)
    (S : Nat → Option GoSlice) (M : Mem (BitVec 32)) (hS : Sim32 n S m M) (o a b : Nat) (so sa sb : GoSlice)
    (ho : S o = some so) (ha : S a = some sa) (hb : S b = some sb) :
    ∃ m', mulSubTo32 F so sa sb g y m (some m') ∧ Sim32 n S m' (vecMulSubTo n o a b M) := by
  obtain ⟨m', h1, h2, h3⟩ := C65_mulSubTo32 F g y m so sa sb _ _ _ (hS.1 o so ho) (hS.1 a sa ha) (hS.1 b sb hb)
    (by simp) (by simp) (by simpa using hn) (hS.alias ho ha) (hS.alias ho hb)
  refine ⟨m', h1, hS.step ho h2 h3 (fun i hi => ?_) ?_⟩
  · rw [vecMulSubTo, (mapLoop_whole _ o a b n _ (nodup_unrolledIdx _) (mem_unrolledIdx _) M).1 i hi]; simp [hi]
  · exact (mapLoop_whole _ o a b n _ (nodup_unrolledIdx _) (mem_unrolledIdx _) M).2

theorem C65_sim_addTo64 (F : Fpu) (g : Reg → BitVec 64) (y : Nat → Y) (m : Memory) (n : Nat) (hn : n < 2 ^ 60)
    (S : Nat → Option GoSlice) (M : Mem (BitVec 64)) (hS : Sim64 n S m M) (o a b : Nat) (so sa sb : GoSlice)
    (ho : S o = some so) (ha : S a = some sa) (hb : S b = some sb) :
    ∃ m', addTo64 F so sa sb g y m (some m') ∧ Sim64 n S m' (vecAddTo n o a b M) := by
  obtain ⟨m', h1, h2, h3⟩ := C65_addTo64 F g y m so sa sb _ _ _ (hS.1 o so ho) (hS.1 a sa ha) (hS.1 b sb hb)
    (by simp) (by simp) (by simpa using hn) (hS.alias ho ha) (hS.alias ho hb)
  refine ⟨m', h1, hS.step ho h2 h3 (fun i hi => ?_) ?_⟩
  · rw [vecAddTo, (mapLoop_whole _ o a b n _ (nodup_unrolledIdx _) (mem_unrolledIdx _) M).1 i hi]; simp [hi]
  · exact (mapLoop_whole _ o a b n _ (nodup_unrolledIdx _) (mem_unrolledIdx _) M).2

theorem C65_sim_subTo64 (F : Fpu) (g : Reg → BitVec 64) (y : Nat → Y) (m : Memory) (n : Nat) (hn : n < 2 ^ 60)
    (S : Nat → Option GoSlice) (M : Mem (BitVec 64)) (hS : Sim64 n S m M) (o a b : Nat) (so sa sb : GoSlice)
    (ho : S o = some so) (ha : S a = some sa) (hb : S b = some sb) :
    ∃ m', subTo64 F so sa sb g y m (some m') ∧ Sim64 n S m' (vecSubTo n o a b M) := by
  obtain ⟨m', h1, h2, h3⟩ := C65_subTo64 F g y m so sa sb _ _ _ (hS.1 o so ho) (hS.1 a sa ha) (hS.1 b sb hb)
    (by simp) (by simp) (by simpa using hn) (hS.alias ho ha) (hS.alias ho hb)
  refine ⟨m', h1, hS.step ho h2 h3 (fun i hi => ?_) ?_⟩
  · rw [vecSubTo, (mapLoop_whole _ o a b n _ (nodup_unrolledIdx _) (mem_unrolledIdx _) M).1 i hi]; simp [hi]
  · exact (mapLoop_whole _ o a b n _ (nodup_unrolledIdx _) (mem_unrolledIdx _) M).2

theorem C65_sim_scalarMulTo64 (F : Fpu) (g : Reg → BitVec 64) (y : Nat → Y) (m : Memory) (n : Nat) (hn : n < 2 ^ 60)
    (S : Nat → Option GoSlice) (M : Mem (BitVec 64)) (hS : Sim64 n S m M) (o a : Nat) (so sa : GoSlice)
    (c : BitVec 64) (ho : S o = some so) (ha : S a = some sa) :
    ∃ m', scalarMulTo64 F so sa c g y m (some m') ∧ Sim64 n S m' (vecScalarMulTo n o a c M) := by
  obtain ⟨m', h1, h2, h3⟩ := C65_scalarMulTo64 F g y m so sa c _ _ (hS.1 o so ho) (hS.1 a sa ha)
    (by simp) (by simpa using hn) (hS.alias ho ha)
  refine ⟨m', h1, hS.step ho h2 h3 (fun i hi => ?_) ?_⟩
  · rw [vecScalarMulTo, (mapLoop_whole _ o a a n _ (nodup_unrolledIdx _) (mem_unrolledIdx _) M).1 i hi]; simp [hi]
  · exact (mapLoop_whole _ o a a n _ (nodup_unrolledIdx _) (mem_unrolledIdx _) M).2

theorem C65_sim_scalarMulAddTo64 (F : Fpu) (g : Reg → BitVec 64) (y : Nat → Y) (m : Memory) (n : Nat) (hn : n < 2 ^ 60)
    (S : Nat → Option GoSlice) (M : Mem (BitVec 64)) (hS : Sim64 n S m M) (o a : Nat) (so sa : GoSlice)
    (c : BitVec 64) (ho : S o = some so) (ha : S a = some sa) :
    ∃ m', scalarMulAddTo64 F so sa c g y m (some m') ∧ Sim64 n S m' (vecScalarMulAddTo n o a c M) := by
  obtain ⟨m', h1, h2, h3⟩ := C65_scalarMulAddTo64 F g y m so sa c _ _ (hS.1 o so ho) (hS.1 a sa ha)
    (by simp) (by simpa using hn) (hS.alias ho ha)
  refine ⟨m', h1, hS.step ho h2 h3 (fun i hi => ?_) ?_⟩
  · rw [vecScalarMulAddTo, (mapLoop_whole _ o a a n _ (nodup_unrolledIdx _) (mem_unrolledIdx _) M).1 i hi]; simp [hi]
  · exact (mapLoop_whole _ o a a n _ (nodup_unrolledIdx _) (mem_unrolledIdx _) M).2

theorem C65_sim_scalarMulSubTo64 (F : Fpu) (g : Reg → BitVec 64) (y : Nat → Y) (m : Memory) (n : Nat) (hn : n < 2 ^ 60)
    (S : Nat → Option GoSlice) (M : Mem (BitVec 64)) (hS : Sim64 n S m M) (o a : Nat) (so sa : GoSlice)
    (c : BitVec 64) (ho : S o = some so) (ha : S a = some sa) :
    ∃ m', scalarMulSubTo64 F so sa c g y m (some m') ∧ Sim64 n S m' (vecScalarMulSubTo n o a c M) := by
  obtain ⟨m', h1, h2, h3⟩ := C65_scalarMulSubTo64 F g y m so sa c _ _ (hS.1 o so ho) (hS.1 a sa ha)
    (by simp) (by simpa using hn) (hS.alias ho ha)
  refine ⟨m', h1, hS.step ho h2 h3 (fun i hi => ?_) ?_⟩
  · rw [vecScalarMulSubTo, (mapLoop_whole _ o a a n _ (nodup_unrolledIdx _) (mem_unrolledIdx _) M).1 i hi]; simp [hi]
  · exact (mapLoop_whole _ o a a n _ (nodup_unrolledIdx _) (mem_unrolledIdx _) M).2

theorem C65_sim_mulTo64 (F : Fpu) (g : Reg → BitVec 64) (y : Nat → Y) (m : Memory) (n : Nat) (hn : n < 2 ^ 60)
    (S : Nat → Option GoSlice) (M : Mem (BitVec 64)) (hS : Sim64 n S m M) (o a b : Nat) (so sa sb : GoSlice)
    (ho : S o = some so) (ha : S a = some sa) (hb : S b = some sb) :
    ∃ m', mulTo64 F so sa sb g y m (some m') ∧ Sim64 n S m' (vecMulTo n o a b M) := by
  obtain ⟨m', h1, h2, h3⟩ := C65_mulTo64 F g y m so sa sb _ _ _ (hS.1 o so ho) (hS.1 a sa ha) (hS.1 b sb hb)
    (by simp) (by simp) (by simpa using hn) (hS.alias ho ha) (hS.alias ho hb)
  refine ⟨m', h1, hS.step ho h2 h3 (fun i hi => ?_) ?_⟩
  · rw [vecMulTo, (mapLoop_whole _ o a b n _ (nodup_unrolledIdx _) (mem_unrolledIdx _) M).1 i hi]; simp [hi]
  · exact (mapLoop_whole _ o a b n _ (nodup_unrolledIdx _) (mem_unrolledIdx _) M).2

theorem C65_sim_mulAddTo64 (F : Fpu) (g : Reg → BitVec 64) (y : Nat → Y) (m : Memory) (n : Nat) (hn : n < 2 ^ 60)
    (S : Nat → Option GoSlice) (M : Mem (BitVec 64)) (hS : Sim64 n S m M) (o a b : Nat) (so sa sb : GoSlice)
    (ho : S o = some so) (ha : S a = some sa) (hb : S b = some sb) :
    ∃ m', mulAddTo64 F so sa sb g y m (some m') ∧ Sim64 n S m' (vecMulAddTo n o a b M) := by
  obtain ⟨m', h1, h2, h3⟩ := C65_mulAddTo64 F g y m so sa sb _ _ _ (hS.1 o so ho) (hS.1 a sa ha) (hS.1 b sb hb)
    (by simp) (by simp) (by simpa using hn) (hS.alias ho ha) (hS.alias ho hb)
  refine ⟨m', h1, hS.step ho h2 h3 (fun i hi => ?_) ?_⟩
  · rw [vecMulAddTo, (mapLoop_whole _ o a b n _ (nodup_unrolledIdx _) (mem_unrolledIdx _) M).1 i hi]; simp [hi]
  · exact (mapLoop_whole _ o a b n _ (nodup_unrolledIdx _) (mem_unrolledIdx _) M).2

theorem C65_sim_mulSubTo64 (F : Fpu) (g : Reg → BitVec 64) (y : Nat → Y) (m : Memory) (n : Nat) (hn : n < 2 ^ 60)
    (S : Nat → Option GoSlice) (M : Mem (BitVec 64)) (hS : Sim64 n S m M) (o a b : Nat) (so sa sb : GoSlice)
    (ho : S o = some so) (ha : S a = some sa) (hb : S b = some sb) :
    ∃ m', mulSubTo64 F so sa sb g y m (some m') ∧ Sim64 n S m' (vecMulSubTo n o a b M) := by
  obtain ⟨m', h1, h2, h3⟩ := C65_mulSubTo64 F g y m so sa sb _ _ _ (hS.1 o so ho) (hS.1 a sa ha) (hS.1 b sb hb)
    (by simp) (by simp) (by simpa using hn) (hS.alias ho ha) (hS.alias ho hb)
  refine ⟨m', h1, hS.step ho h2 h3 (fun i hi => ?_) ?_⟩
  · rw [vecMulSubTo, (mapLoop_whole _ o a b n _ (nodup_unrolledIdx _) (mem_unrolledIdx _) M).1 i hi]; simp [hi]
  · exact (mapLoop_whole _ o a b n _ (nodup_unrolledIdx _) (mem_unrolledIdx _) M).2

/-! ### Overlapping slices

When the output overlaps an input with a positive offset the kernels and the Go loops disagree: the Go loop
reads elements that it has already overwritten, the kernel has loaded eight of them before.  The library
does not do this itself. -/

/-- Eighteen words that are all 1, at addresses 64 to 132. -/
def onesMem : Memory := fun a => if 64 ≤ a.toNat ∧ a.toNat < 136 then some 1#32 else none

/-- No floating point is used by these programs. -/
def zeroFpu : Fpu := ⟨fun _ _ => 0, fun _ _ => 0, fun _ _ => 0, fun _ _ _ => 0, fun _ _ _ => 0, fun _ _ _ => 0,
  fun _ => 0, fun _ => 0, fun _ => 0⟩

/-- `AddTo(v[1:9], v[0:8], w)` with all elements 1: the last element is 9 in Go and 2 with AVX2. -/
theorem C65_overlap_differs :
    (∃ m', addTo32 zeroFpu ⟨68, 8, 8⟩ ⟨64, 8, 8⟩ ⟨100, 8, 8⟩ (fun _ => 0) (fun _ _ => 0) onesMem (some m') ∧
      m' 96 = some 2#32) ∧
    ∃ m', goAddLoop32 68 64 100 (unrolledIdx 8) onesMem = some m' ∧ m' 96 = some 9#32 := by
  refine ⟨?_, ?_⟩
  · have h : ((steps zeroFpu addToUint32AVX2 ([⟨68, 8, 8⟩, ⟨64, 8, 8⟩, ⟨100, 8, 8⟩].flatMap GoSlice.arg ++ []) 40
        (entry (fun _ => 0) (fun _ _ => 0) onesMem)).map fun t => (t.ret, t.mem 96)) = some (true, some 2#32) := by
      decide +kernel
    obtain ⟨t, h1, h2⟩ := Option.map_eq_some_iff.1 h
    rw [Prod.mk.injEq] at h2
    exact ⟨t.mem, ⟨rfl, 40, t, h1, h2.1, rfl⟩, h2.2⟩
  · have h : (goAddLoop32 68 64 100 (unrolledIdx 8) onesMem).map (fun m => m 96) = some (some 9#32) := by
      decide +kernel
    exact Option.map_eq_some_iff.1 h

/-! ### Concrete cases -/

/-- Forty words at addresses 64 to 223; the word at address `a` is `a / 4`. -/
def rampMem : Memory := fun a =>
  if 64 ≤ a.toNat ∧ a.toNat < 224 then some (BitVec.ofNat 32 (a.toNat / 4)) else none

/-- Eleven elements: one pass of the vector loop and three of the leftover loop, `vOut` aliased to `v1`. -/
example : ∃ m', addTo32 zeroFpu ⟨64, 11, 11⟩ ⟨112, 11, 12⟩ ⟨64, 11, 11⟩ (fun _ => 0) (fun _ _ => 0) rampMem (some m') ∧
    Has32 m' ⟨64, 11, 11⟩ [44, 46, 48, 50, 52, 54, 56, 58, 60, 62, 64] ∧ Outside32 rampMem m' ⟨64, 11, 11⟩ :=
  C65_addTo32 zeroFpu _ _ rampMem _ _ _ [16, 17, 18, 19, 20, 21, 22, 23, 24, 25, 26]
    [28, 29, 30, 31, 32, 33, 34, 35, 36, 37, 38] [16, 17, 18, 19, 20, 21, 22, 23, 24, 25, 26]
    ⟨rfl, rfl, by decide⟩ ⟨rfl, rfl, by decide⟩ ⟨rfl, rfl, by decide⟩ rfl rfl (by decide)
    (.inr (by decide +kernel)) (.inl rfl)

/-- Five elements of 64 bits; the product wraps. -/
example : ∃ m', mulSubTo64 zeroFpu ⟨64, 5, 5⟩ ⟨104, 5, 5⟩ ⟨144, 5, 5⟩ (fun _ => 0) (fun _ _ => 0) rampMem (some m') ∧
    Has64 m' ⟨64, 5, 5⟩
      [0x1100000010 - 0x1b0000001a * 0x2500000024, 0x1300000012 - 0x1d0000001c * 0x2700000026,
       0x1500000014 - 0x1f0000001e * 0x2900000028, 0x1700000016 - 0x2100000020 * 0x2b0000002a,
       0x1900000018 - 0x2300000022 * 0x2d0000002c] ∧ Outside64 rampMem m' ⟨64, 5, 5⟩ :=
  C65_mulSubTo64 zeroFpu _ _ rampMem _ _ _
    [0x1100000010, 0x1300000012, 0x1500000014, 0x1700000016, 0x1900000018]
    [0x1b0000001a, 0x1d0000001c, 0x1f0000001e, 0x2100000020, 0x2300000022]
    [0x2500000024, 0x2700000026, 0x2900000028, 0x2b0000002a, 0x2d0000002c]
    ⟨rfl, rfl, by decide⟩ ⟨rfl, rfl, by decide⟩ ⟨rfl, rfl, by decide⟩ rfl rfl (by decide)
    (.inr (by decide +kernel)) (.inr (by decide +kernel))

/-- A memory that represents two vectors of the Go model. -/
example : Sim32 3 (fun v => if v = 0 then some ⟨64, 3, 3⟩ else if v = 1 then some ⟨80, 3, 3⟩ else none) rampMem
    (fun v i => BitVec.ofNat 32 (16 + 4 * v + i)) := by
  refine ⟨fun v s hs => ?_, fun u v s t hs ht huv => ?_⟩
  · by_cases h0 : v = 0
    · subst h0; simp at hs; subst hs; exact ⟨rfl, rfl, by decide⟩
    · by_cases h1 : v = 1
      · subst h1; simp at hs; subst hs; exact ⟨rfl, rfl, by decide⟩
      · simp [h0, h1] at hs
  · by_cases h0 : u = 0 <;> by_cases h1 : u = 1 <;> by_cases h2 : v = 0 <;> by_cases h3 : v = 1 <;>
      simp [h0, h1, h2, h3] at hs ht <;> first | omega | (subst hs ht; decide)

/-- Different lengths. -/
example (F : Fpu) (g : Reg → BitVec 64) (y : Nat → Y) (m : Memory) (r : Option Memory) :
    addTo32 F ⟨64, 3, 3⟩ ⟨64, 3, 3⟩ ⟨80, 4, 4⟩ g y m r ↔ r = none :=
  C65_panics F _ _ _ _ g y m ⟨⟨80, 4, 4⟩, by simp, by simp⟩ r

end Asm
end Tfhe
