import Verif.Model.Bytes
import Mathlib.Tactic.Ring
import Mathlib.Tactic.Linarith

/-! # Readers that undo writers -/
namespace Tfhe.Ser

variable {α β : Type} {v : ℕ}

/-- `r` reads exactly `b`, reports the count `n` and yields `a`, whatever follows in the stream; and
on every proper prefix of `b` it reports an error. -/
structure Reads (r : Reader α) (b : Bytes) (n : ℕ) (a : α) : Prop where
  ok : ∀ rest, r (b ++ rest) = .ok n a rest
  trunc : ∀ p, p <+: b → p ≠ b → ∃ m, r p = .err m

/-- `Reads` where the reported count is the number of bytes. -/
abbrev Rt (r : Reader α) (b : Bytes) (a : α) : Prop := Reads r b b.length a

theorem prefix_append_cases {b b' p : Bytes} (h : p <+: b ++ b') (hne : p ≠ b ++ b') :
    (p <+: b ∧ p ≠ b) ∨ ∃ q, p = b ++ q ∧ q <+: b' ∧ q ≠ b' := by
  rcases List.prefix_or_prefix_of_prefix h (List.prefix_append b b') with h1 | h1
  · by_cases hb : p = b
    · right
      refine ⟨[], by simp [hb], List.nil_prefix, ?_⟩
      rintro rfl
      exact hne (by simp [hb])
    · exact .inl ⟨h1, hb⟩
  · obtain ⟨q, rfl⟩ := h1
    refine .inr ⟨q, rfl, (List.prefix_append_right_inj b).1 h, ?_⟩
    rintro rfl
    exact hne rfl

theorem Reads.pure (a : α) : Reads (Reader.pure a) [] 0 a where
  ok _ := rfl
  trunc _ hp hne := absurd (List.prefix_nil.1 hp) hne

theorem Reads.lift (a : α) : Reads (Reader.lift (some a)) [] 0 a where
  ok _ := rfl
  trunc _ hp hne := absurd (List.prefix_nil.1 hp) hne

theorem Reads.bind {r : Reader α} {f : α → Reader β} {b b' : Bytes} {n m : ℕ} {a : α} {c : β}
    (h : Reads r b n a) (h' : Reads (f a) b' m c) : Reads (r.bind f) (b ++ b') (n + m) c where
  ok rest := by simp [Reader.bind, List.append_assoc, h.ok, h'.ok]
  trunc p hp hne := by
    rcases prefix_append_cases hp hne with ⟨h1, h2⟩ | ⟨q, rfl, h1, h2⟩
    · obtain ⟨m, hm⟩ := h.trunc p h1 h2
      exact ⟨m, by simp [Reader.bind, hm]⟩
    · obtain ⟨m, hm⟩ := h'.trunc q h1 h2
      exact ⟨n + m, by simp [Reader.bind, h.ok, hm]⟩

theorem Reads.bindForget {r : Reader α} {f : α → Reader β} {b b' : Bytes} {n m : ℕ} {a : α} {c : β}
    (h : Reads r b n a) (h' : Reads (f a) b' m c) :
    Reads (r.bindForget f) (b ++ b') (n + m) c where
  ok rest := by simp [Reader.bindForget, List.append_assoc, h.ok, h'.ok]
  trunc p hp hne := by
    rcases prefix_append_cases hp hne with ⟨h1, h2⟩ | ⟨q, rfl, h1, h2⟩
    · obtain ⟨m, hm⟩ := h.trunc p h1 h2
      exact ⟨m, by simp [Reader.bindForget, hm]⟩
    · obtain ⟨m, hm⟩ := h'.trunc q h1 h2
      exact ⟨m, by simp [Reader.bindForget, h.ok, hm]⟩

theorem Reads.bindUncounted {r : Reader α} {f : α → Reader β} {b b' : Bytes} {n m : ℕ} {a : α}
    {c : β} (h : Reads r b n a) (h' : Reads (f a) b' m c) :
    Reads (r.bindUncounted f) (b ++ b') n c where
  ok rest := by simp [Reader.bindUncounted, List.append_assoc, h.ok, h'.ok]
  trunc p hp hne := by
    rcases prefix_append_cases hp hne with ⟨h1, h2⟩ | ⟨q, rfl, h1, h2⟩
    · obtain ⟨m, hm⟩ := h.trunc p h1 h2
      exact ⟨m, by simp [Reader.bindUncounted, hm]⟩
    · obtain ⟨m, hm⟩ := h'.trunc q h1 h2
      exact ⟨n + m, by simp [Reader.bindUncounted, h.ok, hm]⟩

theorem Rt.bind {r : Reader α} {f : α → Reader β} {b b' : Bytes} {a : α} {c : β}
    (h : Rt r b a) (h' : Rt (f a) b' c) : Rt (r.bind f) (b ++ b') c := by
  simpa [Rt] using Reads.bind h h'

theorem Rt.bindForget {r : Reader α} {f : α → Reader β} {b b' : Bytes} {a : α} {c : β}
    (h : Rt r b a) (h' : Rt (f a) b' c) : Rt (r.bindForget f) (b ++ b') c := by
  simpa [Rt] using Reads.bindForget h h'

theorem Rt.pure (a : α) : Rt (Reader.pure a) [] a := Reads.pure a

theorem Rt.lift {o : Option α} {a : α} (h : o = some a) : Rt (Reader.lift o) [] a :=
  h ▸ Reads.lift a

/-- A step that only computes, after a read. -/
theorem Rt.bind_lift {r : Reader α} {f : α → Option β} {b : Bytes} {a : α} {c : β}
    (h : Rt r b a) (h' : f a = some c) : Rt (r.bind fun x => .lift (f x)) b c := by
  simpa using Rt.bind (f := fun x => Reader.lift (f x)) h (Rt.lift h')

/-- A step that only computes, before a read. -/
theorem Rt.lift_bind {o : Option α} {f : α → Reader β} {b : Bytes} {a : α} {c : β}
    (h : o = some a) (h' : Rt (f a) b c) : Rt ((Reader.lift o).bind f) b c := by
  simpa using Rt.bind (Rt.lift h) h'

theorem Rt.map {r : Reader α} (f : α → β) {b : Bytes} {a : α} (h : Rt r b a) :
    Rt (r.map f) b (f a) := by
  simpa [Reader.map] using Rt.bind (f := fun a => Reader.pure (f a)) h (Rt.pure (f a))

theorem Rt.readFull {k : ℕ} {b : Bytes} (h : b.length = k) : Rt (readFull k) b b where
  ok rest := by
    subst h
    simp [Ser.readFull]
  trunc p hp hne := by
    have hlen : p.length < b.length :=
      lt_of_le_of_ne hp.length_le fun h => hne (hp.eq_of_length h)
    exact ⟨p.length, by simp [Ser.readFull]; omega⟩

/-- A loop over equal shapes reads the elements one after another. -/
theorem Rt.readEach {f : α → Reader β} {a : α} {enc : β → Bytes} {l : List β} {n : ℕ}
    (hn : l.length = n) (h : ∀ b ∈ l, Rt (f a) (enc b) b) :
    Rt (readEach f (List.replicate n a)) (l.flatMap enc) l := by
  subst hn
  induction l with
  | nil => exact Rt.pure []
  | cons b l ih =>
    rw [List.length_cons, List.replicate_succ, Ser.readEach, List.flatMap_cons]
    exact Rt.bind (h b (by simp)) (Rt.map _ (ih fun c hc => h c (by simp [hc])))

/-! ## Big-endian numbers -/

theorem putBE_length (k x : ℕ) : (putBE k x).length = k := by
  induction k generalizing x with
  | zero => rfl
  | succ k ih => simp [putBE, ih]

theorem getBE_append (l : Bytes) (b : BitVec 8) : getBE (l ++ [b]) = getBE l * 256 + b.toNat := by
  simp [getBE]

theorem getBE_putBE (k x : ℕ) : getBE (putBE k x) = x % 256 ^ k := by
  induction k generalizing x with
  | zero => simp [putBE, getBE, Nat.mod_one]
  | succ k ih =>
    have h : x % 256 ^ (k + 1) = x % 256 + 256 * (x / 256 % 256 ^ k) := by
      rw [pow_succ, mul_comm (256 ^ k) 256, Nat.mod_mul]
    rw [putBE, getBE_append, ih, BitVec.toNat_ofNat, h]
    norm_num
    ring

theorem putU64_length (x : BitVec 64) : (putU64 x).length = 8 := putBE_length _ _
theorem putLen_length (n : ℕ) : (putLen n).length = 8 := putBE_length _ _
theorem putLenPred_length (n : ℕ) : (putLenPred n).length = 8 := putBE_length _ _
theorem putWord_length (x : BitVec v) : (putWord x).length = v / 8 := putBE_length _ _

theorem Rt.readU64 (x : BitVec 64) : Rt readU64 (putU64 x) x := by
  have h : BitVec.ofNat 64 (getBE (putU64 x)) = x := by
    rw [putU64, getBE_putBE]
    apply BitVec.eq_of_toNat_eq
    have := x.isLt
    rw [BitVec.toNat_ofNat]
    norm_num at *
    omega
  simpa [h, Ser.readU64] using Rt.map (fun b => BitVec.ofNat 64 (getBE b)) (Rt.readFull (putU64_length x))

theorem getWord_putWord (hv : 8 ∣ v) (x : BitVec v) : getWord v (putWord x) = x := by
  rw [getWord, putWord, getBE_putBE]
  apply BitVec.eq_of_toNat_eq
  have h : 256 ^ (v / 8) = 2 ^ v := by
    rw [show (256 : ℕ) = 2 ^ 8 by norm_num, ← pow_mul, Nat.mul_div_cancel' hv]
  rw [h, BitVec.toNat_ofNat, Nat.mod_mod, Nat.mod_eq_of_lt x.isLt]

/-! ## Vectors -/

theorem vecWriteTo_length (x : List (BitVec v)) :
    (vecWriteTo x).length = x.length * (v / 8) := by
  induction x with
  | nil => simp [vecWriteTo]
  | cons a x ih =>
    rw [vecWriteTo, List.flatMap_cons, List.length_append, putWord_length, ← vecWriteTo, ih,
      List.length_cons]
    ring

theorem Rt.vecReadFrom (hv : 8 ∣ v) {n : ℕ} {a : BitVec v} {x : List (BitVec v)}
    (hn : x.length = n) : Rt (vecReadFrom (List.replicate n a)) (vecWriteTo x) x := by
  unfold Ser.vecReadFrom vecWriteTo
  refine Rt.readEach hn fun b _ => ?_
  simpa [getWord_putWord hv] using Rt.map (getWord v) (Rt.readFull (putWord_length b))

theorem decodeVec_vecWriteTo (hv : 8 ∣ v) (x : List (BitVec v)) :
    decodeVec v x.length (vecWriteTo x) = x := by
  induction x with
  | nil => rfl
  | cons a x ih =>
    have h : vecWriteTo (a :: x) = putWord a ++ vecWriteTo x := by simp [vecWriteTo]
    rw [List.length_cons, decodeVec, h, List.take_left' (putWord_length a),
      List.drop_left' (putWord_length a), ih, getWord_putWord hv]

theorem Rt.vecReadFromBuf (hv : 8 ∣ v) {n len : ℕ} {a : BitVec v} {x : List (BitVec v)}
    (hn : x.length = n) (hlen : len = n * (v / 8)) :
    Rt (vecReadFromBuf len (List.replicate n a)) (vecWriteTo x) x := by
  subst hn hlen
  unfold Ser.vecReadFromBuf
  refine Rt.bind_lift (f := fun b =>
    if (List.replicate x.length a).length * (v / 8) ≤ x.length * (v / 8) then
      some (decodeVec v (List.replicate x.length a).length b) else none)
    (Rt.readFull (vecWriteTo_length x)) ?_
  simp [decodeVec_vecWriteTo hv]

theorem vecWriteToBuf_eq {x : List (BitVec v)} {buf : Bytes}
    (h : buf.length = x.length * (v / 8)) : vecWriteToBuf x buf = some (vecWriteTo x) := by
  simp [vecWriteToBuf, ← h]

theorem writeVecs_eq {l : List (List (BitVec v))} {n : ℕ} (hl : ∀ x ∈ l, x.length = n)
    {buf : Bytes} (hb : buf.length = n * (v / 8)) :
    writeVecs l buf = some (l.flatMap vecWriteTo) := by
  induction l generalizing buf with
  | nil => rfl
  | cons x l ih =>
    have hx := hl x (by simp)
    rw [writeVecs, vecWriteToBuf_eq (by rw [hb, hx]), Option.bind_some,
      ih (fun y hy => hl y (by simp [hy])) (by rw [vecWriteTo_length, hx])]
    simp

theorem flatMap_length_const {enc : α → Bytes} {l : List α} {c : ℕ}
    (h : ∀ a ∈ l, (enc a).length = c) : (l.flatMap enc).length = l.length * c := by
  induction l with
  | nil => simp
  | cons a l ih =>
    rw [List.flatMap_cons, List.length_append, h a (by simp), ih fun b hb => h b (by simp [hb]),
      List.length_cons]
    ring

theorem zeroBuf_length (k : ℕ) : (zeroBuf k).length = k := by simp [zeroBuf]

/-! ## Allocation -/

theorem toInt_ofNat_lt {n : ℕ} (h : n < 2 ^ 63) : (BitVec.ofNat 64 n).toInt = n := by
  rw [BitVec.toInt_eq_toNat_of_lt] <;> rw [BitVec.toNat_ofNat, Nat.mod_eq_of_lt (by omega)]
  omega

theorem mkSlice_ofNat {mem n : ℕ} (hm : mem < 2 ^ 63) (hn : n ≤ mem) (a : α) :
    mkSlice mem (BitVec.ofNat 64 n) a = some (List.replicate n a) := by
  rw [mkSlice, toInt_ofNat_lt (by omega), if_neg (by omega), BitVec.toNat_ofNat,
    Nat.mod_eq_of_lt (by omega)]

theorem fill_some (n : ℕ) (a : α) : fill n (some a) = some (List.replicate n a) := by
  induction n with
  | zero => rfl
  | succ n ih => simp [fill, ih, List.replicate_succ]

theorem makeEach_ofNat {mem n : ℕ} (hm : mem < 2 ^ 63) (hn : n ≤ mem) {x : Option α} {a : α}
    (hx : x = some a) : makeEach mem (BitVec.ofNat 64 n) x = some (List.replicate n a) := by
  rw [makeEach, mkSlice_ofNat hm hn, hx, Option.bind_some, fill_some, List.length_replicate]

theorem pred_succ (n : ℕ) : BitVec.ofNat 64 n - 1 + 1 = BitVec.ofNat 64 n := by
  rw [BitVec.sub_add_cancel]

end Tfhe.Ser
