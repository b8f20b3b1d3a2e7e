import Verif.Lemma.MultiKey

/-!
# C32: which sets of party keys a multi-key decryptor accepts

The property fails: the slices of the decryptor have the length of the map, not the number of parties.
-/
namespace Tfhe.Mk

/-- The full property, for constructing a decryptor: every map from party indices to keys is accepted. -/
def AcceptsAll (K : Type) : Prop :=
  ∀ (P : ℕ) (sk : List (ℕ × K)), (sk.map Prod.fst).Nodup → (∀ e ∈ sk, e.1 < P) → (newDecryptor P sk).isSome

/-- The full property, for adding keys. -/
def AddAcceptsAll (K : Type) : Prop :=
  ∀ (P : ℕ) (sk : List (ℕ × K)) (d : Decryptor K) (idx : ℕ) (k : K), (sk.map Prod.fst).Nodup →
    newDecryptor P sk = some d → idx < P → (d.add idx k).isSome

variable {K : Type}

theorem add_isSome (d : Decryptor K) (idx : ℕ) (k : K) :
    (d.add idx k).isSome ↔ idx < d.subs.length ∧ idx < d.keys.length ∧ idx < d.on.length := by
  unfold Decryptor.add
  split_ifs <;> simp <;> omega

theorem add_lengths {d d' : Decryptor K} {idx : ℕ} {k : K} (h : d.add idx k = some d') :
    d'.subs.length = d.subs.length ∧ d'.keys.length = d.keys.length ∧ d'.on.length = d.on.length := by
  unfold Decryptor.add at h
  split_ifs at h
  simp only [Option.some.injEq] at h
  subst h; simp

theorem foldlM_add_isSome (sk : List (ℕ × K)) (d : Decryptor K) :
    (sk.foldlM (fun (d : Decryptor K) e => d.add e.1 e.2) d).isSome ↔
      ∀ e ∈ sk, e.1 < d.subs.length ∧ e.1 < d.keys.length ∧ e.1 < d.on.length := by
  induction sk generalizing d with
  | nil => simp
  | cons e sk ih =>
    rw [List.foldlM_cons]
    cases h : d.add e.1 e.2 with
    | none =>
      have h1 := (add_isSome d e.1 e.2).not
      rw [h] at h1
      simp only [Option.isSome_none, Bool.false_eq_true, not_false_eq_true, true_iff] at h1
      simp only [Option.bind_eq_bind, Option.bind_none, Option.isSome_none, Bool.false_eq_true, false_iff]
      exact fun h2 => h1 (h2 e List.mem_cons_self)
    | some d' =>
      have h1 := (add_isSome d e.1 e.2).1 (by rw [h]; rfl)
      obtain ⟨l1, l2, l3⟩ := add_lengths h
      simp only [Option.bind_eq_bind, Option.bind_some, ih, l1, l2, l3, List.forall_mem_cons]
      exact ⟨fun h2 => ⟨h1, h2⟩, fun h2 => h2.2⟩

theorem foldlM_add_lengths (sk : List (ℕ × K)) (d d' : Decryptor K)
    (h : sk.foldlM (fun d e => d.add e.1 e.2) d = some d') :
    d'.subs.length = d.subs.length ∧ d'.keys.length = d.keys.length ∧ d'.on.length = d.on.length := by
  induction sk generalizing d with
  | nil => simp at h; subst h; simp
  | cons e sk ih =>
    rw [List.foldlM_cons] at h
    cases h1 : d.add e.1 e.2 with
    | none => rw [h1] at h; simp at h
    | some x =>
      rw [h1] at h
      obtain ⟨a, b, c⟩ := ih x h
      obtain ⟨a', b', c'⟩ := add_lengths h1
      omega

/-- Exactly which maps are accepted: those whose indices are below the number of keys (and of parties). -/
theorem C32_newDecryptor_iff (P : ℕ) (sk : List (ℕ × K)) :
    (newDecryptor P sk).isSome ↔ ∀ e ∈ sk, e.1 < sk.length ∧ e.1 < P := by
  unfold newDecryptor
  rw [foldlM_add_isSome]
  simp only [List.length_replicate]
  exact forall₂_congr fun e _ => by tauto

/-- Exactly which keys can be added: those with an index below the number of keys given at construction. -/
theorem C32_addSecretKey_iff (P : ℕ) (sk : List (ℕ × K)) (d : Decryptor K) (h : newDecryptor P sk = some d)
    (idx : ℕ) (k : K) : (d.add idx k).isSome ↔ idx < sk.length ∧ idx < P := by
  obtain ⟨a, b, c⟩ := foldlM_add_lengths sk _ d h
  rw [add_isSome, a, b, c]
  simp only [List.length_replicate]
  tauto

/-- The property is false: with two parties, a decryptor with only the key of party 1 cannot be made. -/
theorem C32_not_acceptsAll (k : K) : ¬ AcceptsAll K := by
  intro h
  have h1 := h 2 [(1, k)] (by simp) (by simp)
  rw [C32_newDecryptor_iff] at h1
  simp at h1

/-- The property is false for adding keys as well: a decryptor made with the key of party 0 does not take
that of party 1. -/
theorem C32_not_addAcceptsAll (k : K) : ¬ AddAcceptsAll K := by
  intro h
  have h0 : (newDecryptor 2 [(0, k)]).isSome := by rw [C32_newDecryptor_iff]; simp
  obtain ⟨d, hd⟩ := Option.isSome_iff_exists.1 h0
  have h1 := h 2 [(0, k)] d 1 k (by simp) hd (by norm_num)
  rw [C32_addSecretKey_iff 2 _ d hd] at h1
  simp at h1

/-- A copy made with `SafeCopy` does not take more keys than the original: one of the slices stays short. -/
theorem C32_safeCopy_add (P : ℕ) (sk : List (ℕ × K)) (d c : Decryptor K) (h : newDecryptor P sk = some d)
    (hc : d.safeCopy P = some c) (idx : ℕ) (k : K) : (c.add idx k).isSome ↔ idx < sk.length ∧ idx < P := by
  obtain ⟨a, b, e⟩ := foldlM_add_lengths sk _ d h
  unfold Decryptor.safeCopy at hc
  split_ifs at hc
  simp only [Option.some.injEq] at hc
  subst hc
  rw [add_isSome]
  simp only [List.length_map, List.length_range, b, e, List.length_replicate]
  tauto

/-- After adding the keys of a map, the decryptor holds the new keys and those it had. -/
theorem foldlM_add_holds (P : ℕ) (sk : List (ℕ × K)) (hnd : (sk.map Prod.fst).Nodup) (d d' : Decryptor K)
    (held : ℕ → Option K) (hd : Holds P d held) (h : sk.foldlM (fun d e => d.add e.1 e.2) d = some d') :
    Holds P d' fun i => ((sk.lookup i).or (held i)) := by
  induction sk generalizing d held with
  | nil => simp at h; subst h; simpa using hd
  | cons e sk ih =>
    obtain ⟨i, k⟩ := e
    rw [List.foldlM_cons] at h
    cases h1 : d.add i k with
    | none => simp only at h; rw [h1] at h; simp at h
    | some x =>
      simp only at h
      rw [h1] at h
      have hx : Holds P x fun j => if j = i then some k else held j := by
        unfold Decryptor.add at h1
        split_ifs at h1 with a b c
        simp only [Option.some.injEq] at h1
        subst h1
        refine ⟨by simpa using hd.len, fun j hj => ?_, fun j hj s hs => ?_⟩
        · by_cases hji : j = i
          · subst hji; simp [List.getD_eq_getElem?_getD, not_le.1 c]
          · have := hd.on j hj
            rw [List.getD_eq_getElem?_getD] at this ⊢
            simpa [List.getElem?_set, Ne.symm hji, hji] using this
        · by_cases hji : j = i
          · subst hji; simp at hs; subst hs; simp [not_le.1 a]
          · simp [hji] at hs
            simpa [List.getElem?_set, Ne.symm hji] using hd.sub j hj s hs
      simp only [List.map_cons, List.nodup_cons] at hnd
      have h2 := ih hnd.2 x _ hx h
      have e : (fun j => (sk.lookup j).or (if j = i then some k else held j)) =
          fun j => (((i, k) :: sk).lookup j).or (held j) := by
        funext j
        by_cases hji : j = i
        · subst hji
          have : sk.lookup j = none := by
            rw [List.lookup_eq_none_iff]
            intro p hp
            have : p.1 ≠ j := fun e => hnd.1 (e ▸ List.mem_map_of_mem (f := Prod.fst) hp)
            simpa using this.symm
          simp [this]
        · have : (j == i) = false := by simpa using hji
          simp [List.lookup_cons, this, hji]
      rw [← e]; exact h2

/-- What is true: a map with the keys of parties `0, …, r-1`, visited in any order, is accepted, and the decryptor
holds exactly these keys.  Missing: all other sets of parties, which panic. -/
theorem C32_prefix_partial (P : ℕ) (sk : List (ℕ × K)) (hnd : (sk.map Prod.fst).Nodup)
    (h : ∀ e ∈ sk, e.1 < sk.length) (hP : sk.length ≤ P) :
    ∃ d, newDecryptor P sk = some d ∧ Holds P d fun i => sk.lookup i := by
  have h1 := (C32_newDecryptor_iff P sk).2 fun e he => ⟨h e he, lt_of_lt_of_le (h e he) hP⟩
  obtain ⟨d, hd⟩ := Option.isSome_iff_exists.1 h1
  refine ⟨d, hd, ?_⟩
  have h0 : Holds P (⟨List.replicate sk.length none, List.replicate sk.length none, List.replicate P false⟩ :
      Decryptor K) fun _ => none :=
    ⟨by simp, fun i hi => by simp [List.getD_eq_getElem?_getD, hi], by simp⟩
  simpa using foldlM_add_holds P sk hnd _ d _ h0 hd

/-- Adding a key again, where it is accepted, replaces the key of that party and no other. -/
theorem C32_replace_partial (P : ℕ) (d d' : Decryptor K) (held : ℕ → Option K) (hd : Holds P d held) (idx : ℕ) (k : K)
    (h : d.add idx k = some d') : Holds P d' fun i => if i = idx then some k else held i := by
  have h1 := foldlM_add_holds P [(idx, k)] (by simp) d d' held hd (by simp [h])
  have e : (fun i => ([(idx, k)].lookup i).or (held i)) = fun i => if i = idx then some k else held i := by
    funext i
    by_cases hi : i = idx
    · subst hi; simp
    · have : (i == idx) = false := by simpa using hi
      simp [List.lookup_cons, this, hi]
  rw [← e]; exact h1

/-- The keys of parties 1 and 0 of three, visited in this order. -/
example : ∃ d, newDecryptor 3 [(1, "b"), (0, "a")] = some d ∧ d.on = [true, true, false] ∧
    d.subs = [some "a", some "b"] := ⟨_, rfl, rfl, rfl⟩
/-- The keys of parties 0 and 2 of three panic. -/
example : (newDecryptor 3 [(0, "a"), (2, "c")]).isNone := rfl

/-- `NewEncryptor` accepts an index for which every encryption panics: the number of parties itself. -/
theorem C32_encryptor_index {R : Type} [CommRing R] (P : ℕ) (sk mask err : Fin 1 → R) (noise pt : R) :
    newEncryptor P P = some (P : ℤ) ∧ encryptGLWE P P sk mask err noise pt = none := by
  refine ⟨by simp [newEncryptor], ?_⟩
  simp [encryptGLWE, mkGLWECopyFromSubKey]

end Tfhe.Mk
