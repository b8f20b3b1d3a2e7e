import Verif.Model.FftConvert

/-!
# C81: conversion of keys and ciphertexts to and from the Fourier domain
-/
namespace Tfhe.Conv

/-- The shape of a leveled ciphertext: `l` levels of `k` polynomials each. -/
def Shape {P : Type} (k l : ℕ) (ct : GLev P) : Prop := ct.level = l ∧ ct.value.length = l ∧ ∀ c ∈ ct.value, c.length = k

theorem loopOut_pure {P Q : Type} (f : P → Q) : ∀ (out : List Q) (ct : List P),
    loopOut (fun _ p => some (f p)) out ct = if out.length ≤ ct.length then some ((ct.take out.length).map f) else none
  | [], _ => by simp [loopOut]
  | _ :: _, [] => by simp [loopOut]
  | o :: out, c :: ct => by
    simp only [loopOut, Option.bind_some, loopOut_pure f out ct, List.length_cons, Nat.add_le_add_iff_right]
    split <;> simp

theorem loopIn_pure {P Q : Type} (f : P → Q) : ∀ (out : List Q) (ct : List P),
    loopIn (fun _ p => some (f p)) out ct = if ct.length ≤ out.length then some (ct.map f ++ out.drop ct.length) else none
  | [], [] => by simp [loopIn]
  | _ :: _, [] => by simp [loopIn]
  | [], _ :: _ => by simp [loopIn]
  | o :: out, c :: ct => by
    simp only [loopIn, Option.bind_some, loopIn_pure f out ct, List.length_cons, Nat.add_le_add_iff_right]
    split <;> simp

theorem loopIn_map {A B : Type} {inner : A → B → Option A} {g : B → A} : ∀ (out : List A) (ct : List B),
    out.length = ct.length → (∀ o ∈ out, ∀ c ∈ ct, inner o c = some (g c)) → loopIn inner out ct = some (ct.map g)
  | [], [], _, _ => rfl
  | _ :: _, [], h, _ => by simp at h
  | [], _ :: _, h, _ => by simp at h
  | o :: out, c :: ct, h, hi => by
    have h1 := loopIn_map (inner := inner) (g := g) out ct (by simpa using h) fun o ho c hc =>
      hi o (List.mem_cons_of_mem _ ho) c (List.mem_cons_of_mem _ hc)
    simp [loopIn, hi o (by simp) c (by simp), h1]

theorem loopLevel_map {A B : Type} {inner : A → B → Option A} {g : B → A} : ∀ (n : ℕ) (out : List A) (ct : List B),
    out.length = n → ct.length = n → (∀ o ∈ out, ∀ c ∈ ct, inner o c = some (g c)) →
      loopLevel inner n out ct = some (ct.map g)
  | 0, [], [], _, _, _ => rfl
  | n + 1, o :: out, c :: ct, h, h', hi => by
    have h1 := loopLevel_map (inner := inner) (g := g) n out ct (by simpa using h) (by simpa using h') fun o ho c hc =>
      hi o (List.mem_cons_of_mem _ ho) c (List.mem_cons_of_mem _ hc)
    simp [loopLevel, hi o (by simp) c (by simp), h1]
  | n + 1, [], _, h, _, _ => by simp at h
  | n + 1, _ :: _, [], _, h, _ => by simp at h
  | 0, _ :: _, _, h, _, _ => by simp at h
  | 0, [], _ :: _, _, h, _ => by simp at h

section
variable {P Q : Type} (f : P → Q) (zero : Q)

/-- **C81 (keys and ciphertexts).**  Into an output with as many polynomials, both loops write the transform of every polynomial
at its place, whatever the output held; the functions that allocate return exactly these. -/
theorem C81_polys (out : List Q) (ct : List P) (h : out.length = ct.length) :
    polysTo f out ct = some (ct.map f) ∧ polysInTo f out ct = some (ct.map f) ∧
      polysNew zero (polysTo f) ct = some (ct.map f) ∧ polysNew zero (polysInTo f) ct = some (ct.map f) := by
  simp [polysTo, polysInTo, polysNew, loopOut_pure, loopIn_pure, h]

/-- **C81 (other lengths).**  The loops differ when the lengths do.  A loop over the output transforms a prefix of a longer input
and panics on a shorter one; a loop over the input panics on a longer input, and otherwise leaves the rest of the output. -/
theorem C81_lengths (out : List Q) (ct : List P) :
    polysTo f out ct = (if out.length ≤ ct.length then some ((ct.take out.length).map f) else none) ∧
      polysInTo f out ct = (if ct.length ≤ out.length then some (ct.map f ++ out.drop ct.length) else none) :=
  ⟨loopOut_pure f out ct, loopIn_pure f out ct⟩

/-- What both loops do with equal lengths; the only fact about them that the rest uses. -/
def Fits (conv : List Q → List P → Option (List Q)) : Prop :=
  ∀ out ct, out.length = ct.length → conv out ct = some (ct.map f)

theorem fits_out : Fits f (polysTo f) := fun out ct h => by simp [polysTo, loopOut_pure, h]
theorem fits_in : Fits f (polysInTo f) := fun out ct h => by simp [polysInTo, loopIn_pure, h]

/-- The transform of every polynomial of a leveled ciphertext. -/
def GLev.map (ct : GLev P) : GLev Q := ⟨ct.level, ct.value.map (List.map f)⟩

variable {f} {conv : List Q → List P → Option (List Q)} (ht : Fits f conv)
include ht

/-- **C81 (leveled ciphertexts).** -/
theorem C81_glev {k l : ℕ} (out : GLev Q) (ct : GLev P) (ho : Shape k l out) (hc : Shape k l ct) :
    glevTo conv out ct = some (ct.map f) := by
  obtain ⟨h1, h2, h3⟩ := ho
  obtain ⟨h4, h5, h6⟩ := hc
  unfold glevTo GLev.map
  rw [h1, loopLevel_map (g := List.map f) l _ _ h2 h5 fun o ho c hc => ht o c (by rw [h3 o ho, h6 c hc]), Option.map_some, h4]

omit ht in
theorem shape_zero (k l : ℕ) : Shape k l (glevZero zero k l) :=
  ⟨rfl, by simp [glevZero], fun c hc => by simp only [glevZero, List.mem_replicate] at hc; simp [hc.2]⟩

/-- The variant that allocates. -/
theorem C81_glev_new {k l : ℕ} (hl : 0 < l) (ct : GLev P) (hc : Shape k l ct) : glevNew zero conv ct = some (ct.map f) := by
  obtain ⟨c, v, h⟩ := List.exists_cons_of_length_pos (by rw [hc.2.1]; exact hl)
  unfold glevNew
  rw [h, List.head?_cons, Option.bind_some, hc.2.2 c (by rw [h]; simp), hc.1]
  exact C81_glev ht _ ct (shape_zero zero k l) hc

/-- **C81 (GGSW ciphertexts).** -/
theorem C81_ggsw {k l : ℕ} (out : List (GLev Q)) (ct : List (GLev P)) (hlen : out.length = ct.length)
    (ho : ∀ o ∈ out, Shape k l o) (hc : ∀ c ∈ ct, Shape k l c) : ggswTo conv out ct = some (ct.map (GLev.map f)) :=
  loopIn_map out ct hlen fun o h c h' => C81_glev ht o c (ho o h) (hc c h')

/-- The variant that allocates: a GGSW ciphertext has as many leveled ciphertexts as these have polynomials. -/
theorem C81_ggsw_new {l : ℕ} (ct : List (GLev P)) (hc : ∀ c ∈ ct, Shape ct.length l c) :
    ggswNew zero conv l ct = some (ct.map (GLev.map f)) :=
  C81_ggsw ht _ ct (by simp) (fun o h => by rw [(List.mem_replicate.1 h).2]; exact shape_zero zero _ l) hc
omit ht

/-- **C81 (uni-encryptions).** -/
theorem C81_uni {l : ℕ} (out : List (Q × Q) × List (Q × Q)) (ct : List (P × P) × List (P × P)) (h1 : out.1.length = l)
    (h2 : out.2.length = l) (h3 : ct.1.length = l) (h4 : ct.2.length = l) :
    uniTo f l out ct = some (ct.1.map (Prod.map f f), ct.2.map (Prod.map f f)) := by
  unfold uniTo
  rw [loopLevel_map (inner := pairTo f) (g := Prod.map f f) l _ _ h1 h3 fun _ _ _ _ => rfl,
    loopLevel_map (inner := pairTo f) (g := Prod.map f f) l _ _ h2 h4 fun _ _ _ _ => rfl]
  rfl

/-- The variant that allocates. -/
theorem C81_uni_new {l : ℕ} (ct : List (P × P) × List (P × P)) (h3 : ct.1.length = l) (h4 : ct.2.length = l) :
    uniNew f zero l ct = some (ct.1.map (Prod.map f f), ct.2.map (Prod.map f f)) :=
  C81_uni _ ct (by simp) (by simp) h3 h4

/-- **C81 (there and back).**  If the inverse transform undoes the transform on the polynomials of a ciphertext, conversion to the
Fourier domain and back returns it: ciphertexts, leveled ciphertexts, GGSW ciphertexts and uni-encryptions. -/
theorem C81_roundtrip {g : Q → P} (zp : P) (good : P → Prop) (hg : ∀ p, good p → g (f p) = p) :
    (∀ ct : List P, (∀ p ∈ ct, good p) →
      (polysNew zero (polysTo f) ct).bind (polysNew zp (polysInTo g)) = some ct) ∧
    (∀ (k l : ℕ) (ct : GLev P), 0 < l → Shape k l ct → (∀ c ∈ ct.value, ∀ p ∈ c, good p) →
      (glevNew zero (polysTo f) ct).bind (glevNew zp (polysInTo g)) = some ct) ∧
    (∀ (l : ℕ) (ct : List (GLev P)), (∀ c ∈ ct, Shape ct.length l c) → (∀ e ∈ ct, ∀ c ∈ e.value, ∀ p ∈ c, good p) →
      (ggswNew zero (polysTo f) l ct).bind (ggswNew zp (polysInTo g) l) = some ct) ∧
    (∀ (l : ℕ) (out : List (Q × Q) × List (Q × Q)) (back ct : List (P × P) × List (P × P)), out.1.length = l → out.2.length = l →
      back.1.length = l → back.2.length = l → ct.1.length = l → ct.2.length = l →
      (∀ q ∈ ct.1, good q.1 ∧ good q.2) → (∀ q ∈ ct.2, good q.1 ∧ good q.2) →
      (uniTo f l out ct).bind (uniTo g l back) = some ct) := by
  have hlist : ∀ ct : List P, (∀ p ∈ ct, good p) → (ct.map f).map g = ct := fun ct h => by
    rw [List.map_map]
    exact (List.map_congr_left (g := id) fun p hp => hg p (h p hp)).trans (List.map_id ct)
  have hlev : ∀ ct : GLev P, (∀ c ∈ ct.value, ∀ p ∈ c, good p) → (ct.map f).map g = ct := fun ct h => by
    unfold GLev.map
    rw [List.map_map, (List.map_congr_left (f := List.map g ∘ List.map f) (g := id) fun c hc => hlist c (h c hc)).trans (List.map_id ct.value)]
  have hshape : ∀ {k l : ℕ} {ct : GLev P}, Shape k l ct → Shape k l (ct.map f) := fun h =>
    ⟨h.1, by simpa [GLev.map] using h.2.1, fun c hc => by
      obtain ⟨c', h1, rfl⟩ := List.mem_map.1 hc
      simpa using h.2.2 c' h1⟩
  have hpair : ∀ ct : List (P × P), (∀ q ∈ ct, good q.1 ∧ good q.2) → (ct.map (Prod.map f f)).map (Prod.map g g) = ct :=
    fun ct h => by
      rw [List.map_map]
      refine (List.map_congr_left (g := id) fun q hq => ?_).trans (List.map_id ct)
      exact Prod.ext (hg _ (h q hq).1) (hg _ (h q hq).2)
  refine ⟨fun ct h => ?_, fun k l ct hl hs h => ?_, fun l ct hs h => ?_, fun l out back ct h1 h2 h3 h4 h5 h6 h7 h8 => ?_⟩
  · rw [(C81_polys f zero (ct.map f) ct (by simp)).2.2.1, Option.bind_some,
      (C81_polys g zp ct (ct.map f) (by simp)).2.2.2, hlist ct h]
  · rw [C81_glev_new zero (fits_out f) hl ct hs, Option.bind_some, C81_glev_new zp (fits_in g) hl _ (hshape hs), hlev ct h]
  · rw [C81_ggsw_new zero (fits_out f) ct hs, Option.bind_some, C81_ggsw_new zp (fits_in g), List.map_map,
      (List.map_congr_left (f := GLev.map g ∘ GLev.map f) (g := id) fun e he => hlev e (h e he)).trans (List.map_id ct)]
    intro c hc
    obtain ⟨c', h1, rfl⟩ := List.mem_map.1 hc
    simpa using hshape (hs c' h1)
  · rw [C81_uni out ct h1 h2 h5 h6, Option.bind_some, C81_uni back _ h3 h4 (by simpa using h5) (by simpa using h6)]
    show some (_, _) = _
    rw [hpair _ h7, hpair _ h8]
end

/-- A GGSW ciphertext of rank 1 with two levels, and transforms that undo each other on even numbers only. -/
example : (ggswNew 0 (polysTo (· / 2)) 2 [⟨2, [[2, 4], [6, 8]]⟩, ⟨2, [[10, 12], [14, 16]]⟩]
    = some [⟨2, [[1, 2], [3, 4]]⟩, ⟨2, [[5, 6], [7, 8]]⟩]) ∧ (ggswNew 0 (polysInTo (· * 2)) 2
      [⟨2, [[1, 2], [3, 4]]⟩, ⟨2, [[5, 6], [7, 8]]⟩] = some [⟨2, [[2, 4], [6, 8]]⟩, ⟨2, [[10, 12], [14, 16]]⟩]) := by decide

example : (∀ c ∈ [(⟨2, [[2, 4], [6, 8]]⟩ : GLev ℕ), ⟨2, [[10, 12], [14, 16]]⟩], Shape 2 2 c) ∧
    ∀ p : ℕ, 2 ∣ p → p / 2 * 2 = p := by
  refine ⟨?_, fun p h => Nat.div_mul_cancel h⟩
  unfold Shape
  decide

/-- A uni-encryption with two levels. -/
example : uniNew (· + 100) 0 2 ([(1, 2), (3, 4)], [(5, 6), (7, 8)]) =
    some ([(101, 102), (103, 104)], [(105, 106), (107, 108)]) := by decide

/-- An output for four parties that receives a ciphertext of two: the last components are old. -/
example : polysInTo (· + 100) [7, 7, 7, 7, 7] [1, 2, 3] = some [101, 102, 103, 7, 7] ∧
    polysTo (· + 100) [7, 7, 7, 7, 7] [1, 2, 3] = none := by decide

end Tfhe.Conv
