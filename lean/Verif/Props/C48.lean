import Verif.Model.KeyViews
import Mathlib.Tactic.Ring
import Mathlib.Algebra.Order.Ring.Nat
import Mathlib.Tactic.SplitIfs

/-!
# C48: all views of a secret key stay consistent
-/
namespace Tfhe
open Views

section
variable {T F : Type} [Zero T] [Zero F]

/-! ### Specification -/

/-- The LWE key is a prefix of the large key; the polynomials of the GLWE key are its consecutive chunks and cover it; every
element read through a view is the corresponding element of the large key. -/
structure ViewsOk (s : State T F) (sk : SK) : Prop where
  lwe_len : sk.lwe.len ≤ sk.large.len
  lwe : ∀ i, i < sk.lwe.len → s.get sk.lwe i = s.get sk.large i ∧ (s.get sk.large i).isSome
  glwe_len : ∃ N, sk.glwe.length * N = sk.large.len ∧ ∀ sl ∈ sk.glwe, sl.len = N
  glwe : ∀ i j sl, sk.glwe[i]? = some sl → j < sl.len →
    s.get sl j = s.get sk.large (i * sl.len + j) ∧ (s.get sl j).isSome

/-- The transformed key is the transform of the GLWE key. -/
def FftOk (tr : List T → ℕ → F) (s : State T F) (sk : SK) : Prop :=
  sk.fftLen = sk.glwe.length ∧
    ∀ i j sl, sk.glwe[i]? = some sl → sl.len = sk.fftRank ∧ (j < sk.fftRank → s.fft sk.fft i j = tr (s.contents sl) j)

/-! ### Canonical keys -/

/-- The key with the given dimensions over array `id`. -/
def keyOf (id : ℕ) (d : ℕ × ℕ × ℕ) : SK :=
  ⟨⟨id, 0, d.2.1 * d.2.2⟩, (List.range d.2.1).map fun i => ⟨id, i * d.2.2, d.2.2⟩, id, d.2.1, d.2.2, ⟨id, 0, d.1⟩⟩

theorem chunk_le {i k N : ℕ} (h : i < k) : (i + 1) * N ≤ k * N := Nat.mul_le_mul_right N h

theorem sub_chunk (id k N i : ℕ) (h : i < k) :
    (⟨id, 0, k * N⟩ : Slice).sub (i * N) ((i + 1) * N) = some ⟨id, i * N, N⟩ := by
  have h1 := chunk_le (N := N) h
  have h2 : (i + 1) * N = i * N + N := by ring
  unfold Slice.sub
  rw [if_pos ⟨by omega, h1⟩]
  simp [h2]

theorem mapM_some' {α β : Type} (f : α → Option β) (l : List α) (g : α → β) (h : ∀ a ∈ l, f a = some (g a)) :
    l.mapM f = some (l.map g) := by
  induction l with
  | nil => rfl
  | cons a l ih =>
    rw [List.mapM_cons, h a (by simp), ih (fun b hb => h b (by simp [hb]))]; rfl

theorem mkKey_spec (id n k N : ℕ) :
    mkKey ⟨id, 0, k * N⟩ n k N id = if n ≤ k * N then some (keyOf id (n, k, N)) else none := by
  unfold mkKey
  rw [mapM_some' _ _ (fun i => ⟨id, i * N, N⟩) fun i hi => sub_chunk id k N i (List.mem_range.1 hi)]
  simp only [Option.bind_some]
  unfold Slice.sub
  by_cases h : n ≤ k * N
  · rw [if_pos ⟨Nat.zero_le _, h⟩, if_pos h]
    simp [keyOf]
  · rw [if_neg (fun c => h c.2), if_neg h]
    rfl

theorem newKey_spec (s : State T F) (v n k N : ℕ) :
    newKey s v n k N = if n ≤ k * N then some ((s.alloc (fun _ => 0) fun _ _ => 0).set v (keyOf s.next (n, k, N))) else none := by
  unfold newKey
  rw [mkKey_spec]
  split <;> rfl

theorem keyOf_getD (id : ℕ) (d : ℕ × ℕ × ℕ) (i : ℕ) (h : i < d.2.1) :
    (keyOf id d).glwe.getD i ⟨0, 0, 0⟩ = ⟨id, i * d.2.2, d.2.2⟩ := by
  simp [keyOf, List.getD, h]

theorem copyKey_spec (s : State T F) (v id : ℕ) (d : ℕ × ℕ × ℕ) (h : d.1 ≤ d.2.1 * d.2.2) :
    copyKey s v (keyOf id d) = some
      ((s.alloc (fun j => if j < d.2.1 * d.2.2 then s.arr id j else 0) (s.fft id)).set v (keyOf s.next d)) := by
  unfold copyKey
  have hl : (keyOf id d).glwe.length = d.2.1 := by simp [keyOf]
  rw [hl]
  have hm : ((List.range d.2.1).mapM fun i =>
      (⟨s.next, 0, (keyOf id d).large.len⟩ : Slice).sub (i * ((keyOf id d).glwe.getD i ⟨0, 0, 0⟩).len)
        ((i + 1) * ((keyOf id d).glwe.getD i ⟨0, 0, 0⟩).len))
      = some ((List.range d.2.1).map fun i => ⟨s.next, i * d.2.2, d.2.2⟩) := by
    refine mapM_some' _ _ _ fun i hi => ?_
    have hi := List.mem_range.1 hi
    rw [keyOf_getD id d i hi]
    exact sub_chunk s.next d.2.1 d.2.2 i hi
  simp only
  rw [hm]
  simp only [Option.bind_some]
  unfold Slice.sub
  rw [if_pos ⟨Nat.zero_le _, h⟩]
  simp [keyOf]

/-! ### Every key is canonical -/

/-- Every variable holds a canonical key over an allocated array; the array determines the dimensions. -/
def Inv (s : State T F) : Prop :=
  0 < s.next ∧ ∃ sh : ℕ → ℕ × ℕ × ℕ, (∀ id, (sh id).1 ≤ (sh id).2.1 * (sh id).2.2) ∧ sh 0 = (0, 0, 0) ∧
    ∀ v, ∃ id, id < s.next ∧ s.env v = keyOf id (sh id)

theorem inv_init : Inv (State.init : State T F) :=
  ⟨Nat.one_pos, fun _ => (0, 0, 0), fun _ => Nat.zero_le _, rfl, fun _ => ⟨0, Nat.one_pos, rfl⟩⟩

/-- Operations that only write to memory keep the invariant. -/
theorem inv_mem {s s' : State T F} (h : Inv s) (hn : s'.next = s.next) (he : s'.env = s.env) : Inv s' := by
  obtain ⟨h0, sh, h1, h2, h3⟩ := h
  exact ⟨by rw [hn]; exact h0, sh, h1, h2, fun v => by rw [hn, he]; exact h3 v⟩

theorem inv_alloc {s : State T F} (h : Inv s) (v : ℕ) (d : ℕ × ℕ × ℕ) (hd : d.1 ≤ d.2.1 * d.2.2) (vals : ℕ → T)
    (ffts : ℕ → ℕ → F) : Inv ((s.alloc vals ffts).set v (keyOf s.next d)) := by
  obtain ⟨h0, sh, h1, h2, h3⟩ := h
  refine ⟨Nat.succ_pos _, fun id => if id = s.next then d else sh id, ?_, ?_, ?_⟩
  · intro id
    simp only
    split
    · exact hd
    · exact h1 id
  · simp only
    rw [if_neg (by omega)]; exact h2
  · intro u
    by_cases hu : u = v
    · exact ⟨s.next, Nat.lt_succ_self _, by simp [State.set, hu]⟩
    · obtain ⟨id, hid, he⟩ := h3 u
      refine ⟨id, Nat.lt_succ_of_lt hid, ?_⟩
      simp only [State.set, State.alloc, if_neg hu]
      rw [if_neg (by omega)]; exact he

theorem put_eq {s s' : State T F} {sl : Slice} {i : ℕ} {x : T} (h : s.put sl i x = some s') :
    i < sl.len ∧ s' = { s with arr := fun a j => if a = sl.arr ∧ j = sl.off + i then x else s.arr a j } := by
  unfold State.put at h
  split at h
  · rename_i hi; exact ⟨hi, (Option.some.inj h).symm⟩
  · simp at h

theorem inv_step (tr : List T → ℕ → F) {s s' : State T F} (op : Op T F) (h : Inv s) (hs : step tr s op = some s') : Inv s' := by
  have hput : ∀ {sl : Slice} {i : ℕ} {x : T}, s.put sl i x = some s' → Inv s' := by
    intro sl i x hp
    obtain ⟨_, rfl⟩ := put_eq hp
    exact inv_mem h rfl rfl
  cases op with
  | new v n k N =>
    simp only [step, newKey_spec] at hs
    split at hs
    · rename_i hd
      rw [← Option.some.inj hs]; exact inv_alloc h v (n, k, N) hd _ _
    · simp at hs
  | gen v n k N vals =>
    simp only [step, genKey, newKey_spec] at hs
    split at hs
    · rename_i hd
      rw [Option.map_some] at hs
      rw [← Option.some.inj hs]
      exact inv_mem (inv_alloc h v (n, k, N) hd _ _) rfl rfl
    · simp at hs
  | copy dst src =>
    obtain ⟨h0, sh, h1, h2, h3⟩ := id h
    obtain ⟨id, hid, he⟩ := h3 src
    simp only [step, he, copyKey_spec s dst id (sh id) (h1 id)] at hs
    rw [← Option.some.inj hs]
    exact inv_alloc h dst _ (h1 id) _ _
  | assign dst src =>
    obtain ⟨h0, sh, h1, h2, h3⟩ := h
    simp only [step, Option.some.injEq] at hs
    subst hs
    refine ⟨h0, sh, h1, h2, fun u => ?_⟩
    by_cases hu : u = dst
    · obtain ⟨id, hid, he⟩ := h3 src
      exact ⟨id, hid, by simp [State.set, hu, he]⟩
    · obtain ⟨id, hid, he⟩ := h3 u
      exact ⟨id, hid, by simp [State.set, hu, he]⟩
  | copyFrom dst src =>
    simp only [step, copyFromKey] at hs
    split at hs
    · rw [← Option.some.inj hs]; exact inv_mem h rfl rfl
    · simp at hs
  | clear v =>
    simp only [step, Option.some.injEq] at hs
    subst hs
    exact inv_mem h rfl rfl
  | read v header vals ffts =>
    simp only [step, readKey] at hs
    split at hs
    · rw [← Option.some.inj hs]; exact h
    · rename_i n k N
      rw [newKey_spec] at hs
      split at hs
      · rename_i hd
        rw [Option.map_some] at hs
        rw [← Option.some.inj hs]
        exact inv_mem (inv_alloc h v (n, k, N) hd _ _) rfl rfl
      · simp at hs
  | putLarge v i x => exact hput hs
  | putLWE v i x => exact hput hs
  | putGLWE v i j x =>
    simp only [step] at hs
    obtain ⟨sl, _, hp⟩ := Option.bind_eq_some_iff.1 hs
    exact hput hp

theorem foldlM_inv {α β : Type} {f : β → α → Option β} {P : β → Prop} (hf : ∀ b a b', P b → f b a = some b' → P b')
    (l : List α) : ∀ (b b' : β), P b → l.foldlM f b = some b' → P b' := by
  induction l with
  | nil => intro b b' hb h; rw [List.foldlM_nil] at h; exact Option.some.inj h ▸ hb
  | cons a l ih =>
    intro b b' hb h
    rw [List.foldlM_cons] at h
    obtain ⟨c, h1, h2⟩ := Option.bind_eq_some_iff.1 h
    exact ih c b' (hf b a c hb h1) h2

theorem inv_run (tr : List T → ℕ → F) (ops : List (Op T F)) (s : State T F) (h : run tr ops = some s) : Inv s :=
  foldlM_inv (P := Inv) (fun _ op _ hb hs => inv_step tr op hb hs) ops _ _ inv_init h

theorem keyOf_get (id : ℕ) (d : ℕ × ℕ × ℕ) (i : ℕ) (sl : Slice) (h : (keyOf id d).glwe[i]? = some sl) :
    i < d.2.1 ∧ sl = ⟨id, i * d.2.2, d.2.2⟩ := by
  simp only [keyOf, List.getElem?_map, Option.map_eq_some_iff] at h
  obtain ⟨a, h1, h2⟩ := h
  obtain ⟨h3, h4⟩ := List.getElem?_eq_some_iff.1 h1
  rw [List.length_range] at h3
  rw [List.getElem_range] at h4
  subst h4
  exact ⟨h3, h2.symm⟩

theorem viewsOk_keyOf (s : State T F) (id : ℕ) (d : ℕ × ℕ × ℕ) (hd : d.1 ≤ d.2.1 * d.2.2) : ViewsOk s (keyOf id d) := by
  constructor
  · exact hd
  · intro i hi
    have hi : i < d.1 := hi
    have h1 : s.get (keyOf id d).large i = some (s.arr id (0 + i)) := if_pos (show i < d.2.1 * d.2.2 by omega)
    have h2 : s.get (keyOf id d).lwe i = some (s.arr id (0 + i)) := if_pos hi
    rw [h1, h2]
    exact ⟨rfl, rfl⟩
  · refine ⟨d.2.2, by simp [keyOf], ?_⟩
    intro sl hsl
    obtain ⟨a, _, rfl⟩ := List.mem_map.1 hsl
    rfl
  · intro i j sl hsl hj
    obtain ⟨hi, rfl⟩ := keyOf_get id d i sl hsl
    have hj : j < d.2.2 := hj
    have hc := chunk_le (N := d.2.2) hi
    have e : (i + 1) * d.2.2 = i * d.2.2 + d.2.2 := by ring
    have h1 : s.get (keyOf id d).large (i * d.2.2 + j) = some (s.arr id (0 + (i * d.2.2 + j))) :=
      if_pos (show i * d.2.2 + j < d.2.1 * d.2.2 by omega)
    have h2 : s.get ⟨id, i * d.2.2, d.2.2⟩ j = some (s.arr id (i * d.2.2 + j)) := if_pos hj
    rw [h1, h2, Nat.zero_add]
    exact ⟨rfl, rfl⟩

/-- **Views.**  After any history of creating, generating, copying, assigning, clearing and reading keys, and of writes through any
view, the views of every key agree. -/
theorem C48_views (tr : List T → ℕ → F) (ops : List (Op T F)) (s : State T F) (h : run tr ops = some s) (v : ℕ) :
    ViewsOk s (s.env v) := by
  obtain ⟨_, sh, h1, _, h3⟩ := inv_run tr ops s h
  obtain ⟨id, _, he⟩ := h3 v
  rw [he]
  exact viewsOk_keyOf s id _ (h1 id)

/-- **Writes are seen.**  A write through a polynomial of the GLWE key is seen in the large key at the corresponding position, and
no other element of the large key changes. -/
theorem C48_write_glwe (tr : List T → ℕ → F) (ops : List (Op T F)) (s s' : State T F) (h : run tr ops = some s)
    (v i j : ℕ) (x : T) (hs : step tr s (.putGLWE v i j x) = some s') :
    ∃ N, (∀ sl ∈ (s.env v).glwe, sl.len = N) ∧ j < N ∧ s'.env v = s.env v ∧
      ∀ t, s'.get (s'.env v).large t = if t = i * N + j then some x else s.get (s.env v).large t := by
  obtain ⟨_, sh, h1, _, h3⟩ := inv_run tr ops s h
  obtain ⟨id, _, he⟩ := h3 v
  simp only [step] at hs
  obtain ⟨sl, hsl, hp⟩ := Option.bind_eq_some_iff.1 hs
  obtain ⟨hj, rfl⟩ := put_eq hp
  rw [he] at hsl
  obtain ⟨hi, rfl⟩ := keyOf_get id _ i sl hsl
  have hj : j < (sh id).2.2 := hj
  have hc := chunk_le (N := (sh id).2.2) hi
  have e : (i + 1) * (sh id).2.2 = i * (sh id).2.2 + (sh id).2.2 := by ring
  refine ⟨(sh id).2.2, ?_, hj, rfl, ?_⟩
  · intro sl hsl
    rw [he] at hsl
    obtain ⟨a, _, rfl⟩ := List.mem_map.1 hsl
    rfl
  · intro t
    rw [he]
    unfold State.get
    simp only [keyOf, Nat.zero_add, true_and]
    by_cases ht : t = i * (sh id).2.2 + j
    · rw [if_pos ht, if_pos (by omega), if_pos ht]
    · rw [if_neg ht, if_neg ht]

/-- The same for a write through the LWE key or the large key. -/
theorem C48_write_lwe (tr : List T → ℕ → F) (ops : List (Op T F)) (s s' : State T F) (h : run tr ops = some s)
    (v i : ℕ) (x : T) (hs : step tr s (.putLWE v i x) = some s' ∨ step tr s (.putLarge v i x) = some s') :
    s'.env v = s.env v ∧ ∀ t, s'.get (s'.env v).large t = if t = i then some x else s.get (s.env v).large t := by
  obtain ⟨_, sh, h1, _, h3⟩ := inv_run tr ops s h
  obtain ⟨id, _, he⟩ := h3 v
  have h1 := h1 id
  have key : ∀ n, n ≤ (sh id).2.1 * (sh id).2.2 → s.put ⟨id, 0, n⟩ i x = some s' →
      s'.env v = s.env v ∧ ∀ t, s'.get (s'.env v).large t = if t = i then some x else s.get (s.env v).large t := by
    intro n hn hp
    obtain ⟨hi, rfl⟩ := put_eq hp
    have hi : i < n := hi
    refine ⟨rfl, fun t => ?_⟩
    rw [he]
    unfold State.get
    simp only [keyOf, Nat.zero_add, true_and]
    by_cases ht : t = i
    · rw [if_pos ht, if_pos (by omega), if_pos ht]
    · rw [if_neg ht, if_neg ht]
  rcases hs with hs | hs
  · simp only [step, he] at hs
    exact key _ h1 hs
  · simp only [step, he] at hs
    exact key _ le_rfl hs

/-! ### Independence -/

/-- The operation makes or writes the key in this variable. -/
def target : Op T F → ℕ
  | .new v _ _ _ => v
  | .gen v _ _ _ _ => v
  | .copy dst _ => dst
  | .assign dst _ => dst
  | .copyFrom dst _ => dst
  | .clear v => v
  | .read v _ _ _ => v
  | .putLarge v _ _ => v
  | .putLWE v _ _ => v
  | .putGLWE v _ _ _ => v

def NoAssign : Op T F → Prop
  | .assign _ _ => False
  | _ => True

/-- Keys in different variables have different arrays, except for the empty array of the zero value. -/
def Distinct (s : State T F) : Prop :=
  ∀ u v, u ≠ v → (s.env u).large.arr = (s.env v).large.arr → (s.env u).large.arr = 0

theorem inv_lt {s : State T F} (h : Inv s) (v : ℕ) : (s.env v).large.arr < s.next := by
  obtain ⟨_, sh, _, _, h3⟩ := h
  obtain ⟨id, hid, he⟩ := h3 v
  rw [he]; exact hid

theorem distinct_alloc {s : State T F} (hi : Inv s) (h : Distinct s) (v : ℕ) (d : ℕ × ℕ × ℕ) (vals : ℕ → T)
    (ffts : ℕ → ℕ → F) : Distinct ((s.alloc vals ffts).set v (keyOf s.next d)) := by
  intro a b hab e
  simp only [State.set, State.alloc] at e ⊢
  have ha := inv_lt hi a
  have hb := inv_lt hi b
  by_cases h1 : a = v
  · rw [if_pos h1, if_neg (by omega)] at e
    have e : s.next = (s.env b).large.arr := e
    omega
  · rw [if_neg h1] at e ⊢
    by_cases h2 : b = v
    · rw [if_pos h2] at e
      have e : (s.env a).large.arr = s.next := e
      omega
    · rw [if_neg h2] at e
      exact h a b hab e

/-- How a step changes variables and memory. -/
theorem step_cases (tr : List T → ℕ → F) {s s' : State T F} (op : Op T F) (h : Inv s) (hna : NoAssign op)
    (hs : step tr s op = some s') :
    (s'.env = s.env ∧ s'.next = s.next ∧
      (∀ a, a ≠ (s.env (target op)).large.arr → s'.arr a = s.arr a ∧ s'.fft a = s.fft a)) ∨
    (∃ d vals ffts, s'.env = (s.set (target op) (keyOf s.next d)).env ∧ s'.next = s.next + 1 ∧ s'.arr s.next = vals ∧
      s'.fft s.next = ffts ∧ ∀ a, a ≠ s.next → s'.arr a = s.arr a ∧ s'.fft a = s.fft a) := by
  have hid : ∀ v, ∃ id d, s.env v = keyOf id d := fun v => by
    obtain ⟨_, sh, _, _, h3⟩ := h
    obtain ⟨id, _, he⟩ := h3 v
    exact ⟨id, _, he⟩
  have hput : ∀ {sl : Slice} {i : ℕ} {x : T} {v : ℕ}, sl.arr = (s.env v).large.arr → s.put sl i x = some s' →
      s'.env = s.env ∧ s'.next = s.next ∧ ∀ a, a ≠ (s.env v).large.arr → s'.arr a = s.arr a ∧ s'.fft a = s.fft a := by
    intro sl i x v ha hp
    obtain ⟨_, rfl⟩ := put_eq hp
    refine ⟨rfl, rfl, fun a hne => ⟨?_, rfl⟩⟩
    funext j
    exact if_neg (fun c => hne (c.1.trans ha))
  cases op with
  | new v n k N =>
    simp only [step, newKey_spec] at hs
    split at hs
    · rw [← Option.some.inj hs]
      refine Or.inr ⟨(n, k, N), _, _, rfl, rfl, rfl, rfl, fun a ha => ⟨if_neg ha, if_neg ha⟩⟩
    · simp at hs
  | gen v n k N vals =>
    simp only [step, genKey, newKey_spec] at hs
    split at hs
    · rw [Option.map_some] at hs
      rw [← Option.some.inj hs]
      refine Or.inr ⟨(n, k, N), _, _, rfl, rfl, rfl, rfl, fun a ha => ?_⟩
      constructor
      · funext j
        simp only [State.transform, State.fill, State.set, State.alloc, if_true]
        rw [if_neg (fun c => ha c.1), if_neg ha]
      · funext i j
        simp only [State.transform, State.fill, State.set, State.alloc, if_true]
        rw [if_neg (fun c => ha c.1), if_neg ha]
    · simp at hs
  | copy dst src =>
    obtain ⟨_, sh, h1, _, h3⟩ := h
    obtain ⟨id, _, he⟩ := h3 src
    simp only [step, he, copyKey_spec s dst id (sh id) (h1 id)] at hs
    rw [← Option.some.inj hs]
    exact Or.inr ⟨sh id, _, _, rfl, rfl, rfl, rfl, fun a ha => ⟨if_neg ha, if_neg ha⟩⟩
  | assign dst src => exact absurd hna (by simp [NoAssign])
  | copyFrom dst src =>
    obtain ⟨id, d, he⟩ := hid dst
    simp only [step, copyFromKey] at hs
    split at hs
    · rw [← Option.some.inj hs]
      refine Or.inl ⟨rfl, rfl, fun a ha => ?_⟩
      simp only [target, he] at ha
      constructor
      · funext j
        simp only [he]
        exact if_neg (fun c => ha c.1)
      · funext i j
        simp only [he]
        exact if_neg (fun c => ha c.1)
    · simp at hs
  | clear v =>
    obtain ⟨id, d, he⟩ := hid v
    simp only [step, Option.some.injEq] at hs
    subst hs
    refine Or.inl ⟨rfl, rfl, fun a ha => ?_⟩
    simp only [target, he] at ha
    constructor
    · funext j
      simp only [clearKey, State.fill, he]
      exact if_neg (fun c => ha c.1)
    · funext i j
      simp only [clearKey, he]
      exact if_neg (fun c => ha c.1)
  | read v header vals ffts =>
    simp only [step, readKey] at hs
    split at hs
    · rw [← Option.some.inj hs]; exact Or.inl ⟨rfl, rfl, fun _ _ => ⟨rfl, rfl⟩⟩
    · rename_i n k N
      rw [newKey_spec] at hs
      split at hs
      · rw [Option.map_some] at hs
        rw [← Option.some.inj hs]
        refine Or.inr ⟨(n, k, N), _, _, rfl, rfl, rfl, rfl, fun a ha => ?_⟩
        constructor
        · funext j
          simp only [State.fill, State.set, State.alloc, if_true]
          rw [if_neg (fun c => ha c.1), if_neg ha]
        · funext i j
          simp only [State.fill, State.set, State.alloc, if_true]
          rw [if_neg (fun c => ha c.1), if_neg ha]
      · simp at hs
  | putLarge v i x => exact Or.inl (hput rfl hs)
  | putLWE v i x =>
    obtain ⟨id, d, he⟩ := hid v
    exact Or.inl (hput (by rw [target, he]; rfl) hs)
  | putGLWE v i j x =>
    obtain ⟨id, d, he⟩ := hid v
    simp only [step] at hs
    obtain ⟨sl, hsl, hp⟩ := Option.bind_eq_some_iff.1 hs
    refine Or.inl (hput ?_ hp)
    rw [he] at hsl
    obtain ⟨_, rfl⟩ := keyOf_get id d i sl hsl
    rw [target, he]; rfl

theorem distinct_step (tr : List T → ℕ → F) {s s' : State T F} (op : Op T F) (h : Inv s) (hd : Distinct s) (hna : NoAssign op)
    (hs : step tr s op = some s') : Distinct s' := by
  rcases step_cases tr op h hna hs with ⟨he, -, -⟩ | ⟨d, vals, ffts, he, -⟩
  · intro u v; rw [he]; exact hd u v
  · intro u v
    rw [he]
    exact distinct_alloc h hd (target op) d (fun _ => 0) (fun _ _ => 0) u v

/-- **Keys are independent.**  In a history without struct assignments, whatever is done to the key in one variable (writes, `Clear`,
`CopyFrom`, `ReadFrom`, replacing it) leaves every view and the transformed key in every other variable unchanged; in particular a
copy and its original. -/
theorem C48_independent (tr : List T → ℕ → F) (ops : List (Op T F)) (hops : ∀ op ∈ ops, NoAssign op) (s s' : State T F)
    (h : run tr ops = some s) (op : Op T F) (hna : NoAssign op) (hs : step tr s op = some s') (u : ℕ) (hu : u ≠ target op) :
    s'.env u = s.env u ∧ s'.contents (s'.env u).large = s.contents (s.env u).large ∧
      s'.contents (s'.env u).lwe = s.contents (s.env u).lwe ∧
      (s'.env u).glwe.map s'.contents = (s.env u).glwe.map s.contents ∧
      ∀ i j, i < (s.env u).fftLen → j < (s.env u).fftRank → s'.fft (s'.env u).fft i j = s.fft (s.env u).fft i j := by
  have hi := inv_run tr ops s h
  have hd : Distinct s := by
    have : ∀ (ops : List (Op T F)), (∀ op ∈ ops, NoAssign op) → ∀ s0 s1 : State T F, Inv s0 → Distinct s0 →
        ops.foldlM (step tr) s0 = some s1 → Distinct s1 := by
      intro ops
      induction ops with
      | nil => intro _ s0 s1 _ h2 h3; rw [List.foldlM_nil] at h3; exact Option.some.inj h3 ▸ h2
      | cons op ops ih =>
        intro ho s0 s1 h1 h2 h3
        rw [List.foldlM_cons] at h3
        obtain ⟨c, e1, e2⟩ := Option.bind_eq_some_iff.1 h3
        exact ih (fun o hm => ho o (by simp [hm])) c s1 (inv_step tr op h1 e1)
          (distinct_step tr op h1 h2 (ho op (by simp)) e1) e2
    exact this ops hops _ s inv_init (fun _ _ _ _ => rfl) h
  obtain ⟨_, sh, _, hz, h3⟩ := id hi
  obtain ⟨id, hid, he⟩ := h3 u
  have hmem : s'.env u = s.env u ∧ ((s'.arr id = s.arr id ∧ s'.fft id = s.fft id) ∨ id = 0) := by
    rcases step_cases tr op hi hna hs with ⟨e1, -, e3⟩ | ⟨d, vals, ffts, e1, -, -, -, e3⟩
    · refine ⟨by rw [e1], ?_⟩
      by_cases hne : id = (s.env (target op)).large.arr
      · right
        have := hd u (target op) hu (by rw [he]; exact hne)
        rw [he] at this
        exact this
      · exact Or.inl (e3 id hne)
    · refine ⟨by rw [e1]; exact if_neg hu, Or.inl (e3 id (by omega))⟩
  obtain ⟨henv, hm⟩ := hmem
  rw [henv, he]
  refine ⟨rfl, ?_⟩
  rcases hm with ⟨ha, hf⟩ | h0
  · refine ⟨?_, ?_, ?_, ?_⟩
    · simp only [State.contents, keyOf, ha]
    · simp only [State.contents, keyOf, ha]
    · simp only [keyOf, List.map_map]
      refine List.map_congr_left fun i _ => ?_
      simp only [Function.comp, State.contents, ha]
    · intro i j _ _
      simp only [keyOf, hf]
  · subst h0
    have hn0 : ∀ id : ℕ, id = 0 → keyOf id (sh id) = keyOf 0 (0, 0, 0) := fun id h => by rw [h, hz]
    rw [hn0 0 rfl]
    refine ⟨rfl, rfl, rfl, ?_⟩
    intro i j hi _
    exact absurd hi (Nat.not_lt_zero _)

/-- `Copy` copies: the new key has the same dimensions and the same contents. -/
theorem C48_copy (tr : List T → ℕ → F) (ops : List (Op T F)) (s s' : State T F) (h : run tr ops = some s) (dst src : ℕ)
    (hs : step tr s (.copy dst src) = some s') :
    s'.contents (s'.env dst).large = s.contents (s.env src).large ∧
      s'.contents (s'.env dst).lwe = s.contents (s.env src).lwe ∧
      (s'.env dst).glwe.map s'.contents = (s.env src).glwe.map s.contents ∧
      (s'.env dst).fftLen = (s.env src).fftLen ∧ (s'.env dst).fftRank = (s.env src).fftRank ∧
      s'.fft (s'.env dst).fft = s.fft (s.env src).fft := by
  obtain ⟨_, sh, h1, _, h3⟩ := inv_run tr ops s h
  obtain ⟨id, _, he⟩ := h3 src
  have h1 := h1 id
  simp only [step, he, copyKey_spec s dst id (sh id) h1] at hs
  rw [← Option.some.inj hs, he]
  refine ⟨?_, ?_, ?_, ?_, ?_, ?_⟩
  · simp only [State.set, State.alloc, State.contents, keyOf, if_true, Nat.zero_add]
    exact List.map_congr_left fun j hj => if_pos (List.mem_range.1 hj)
  · simp only [State.set, State.alloc, State.contents, keyOf, if_true, Nat.zero_add]
    exact List.map_congr_left fun j hj => if_pos (by have := List.mem_range.1 hj; omega)
  · simp only [State.set, State.alloc, keyOf, if_true, List.map_map]
    refine List.map_congr_left fun i hi => ?_
    simp only [Function.comp, State.contents, if_true]
    refine List.map_congr_left fun j hj => if_pos ?_
    have := chunk_le (N := (sh id).2.2) (List.mem_range.1 hi)
    have e : (i + 1) * (sh id).2.2 = i * (sh id).2.2 + (sh id).2.2 := by ring
    have := List.mem_range.1 hj
    omega
  all_goals simp [State.set, State.alloc, keyOf]

/-- `CopyFrom` between keys of the same shape copies: afterwards all views and the transformed key of the destination have the
contents of the source. -/
theorem C48_copyFrom (tr : List T → ℕ → F) (ops : List (Op T F)) (s s' : State T F) (h : run tr ops = some s) (dst src : ℕ)
    (hs : step tr s (.copyFrom dst src) = some s') (hk : (s.env dst).fftLen = (s.env src).fftLen)
    (hN : (s.env dst).fftRank = (s.env src).fftRank) :
    s'.contents (s'.env dst).large = s.contents (s.env src).large ∧
      (s'.env dst).glwe.map s'.contents = (s.env src).glwe.map s.contents ∧
      ∀ i j, i < (s.env src).fftLen → j < (s.env src).fftRank → s'.fft (s'.env dst).fft i j = s.fft (s.env src).fft i j := by
  obtain ⟨_, sh, h1, _, h3⟩ := inv_run tr ops s h
  obtain ⟨a, ha, hea⟩ := h3 dst
  obtain ⟨b, hb, heb⟩ := h3 src
  rw [hea, heb] at hk hN
  have c1 : (sh a).2.1 = (sh b).2.1 := hk
  have c2 : (sh a).2.2 = (sh b).2.2 := hN
  simp only [step, copyFromKey] at hs
  split at hs
  · rw [← Option.some.inj hs]
    simp only [hea, heb, keyOf, State.contents, Nat.zero_add, Nat.zero_le, true_and, Nat.sub_zero, c1, c2, min_self, List.map_map]
    refine ⟨?_, ?_, ?_⟩
    · exact List.map_congr_left fun j hj => if_pos (List.mem_range.1 hj)
    · refine List.map_congr_left fun i hi => ?_
      simp only [Function.comp, State.contents, true_and]
      refine List.map_congr_left fun j hj => if_pos ?_
      have := chunk_le (N := (sh b).2.2) (List.mem_range.1 hi)
      have e : (i + 1) * (sh b).2.2 = i * (sh b).2.2 + (sh b).2.2 := by ring
      have := List.mem_range.1 hj
      omega
    · intro i j hi hj
      exact if_pos ⟨hi, hj⟩
  · simp at hs

/-- `Clear` clears: every view and the transformed key are zero. -/
theorem C48_clear (tr : List T → ℕ → F) (ops : List (Op T F)) (s s' : State T F) (h : run tr ops = some s) (v : ℕ)
    (hs : step tr s (.clear v) = some s') :
    (∀ x ∈ s'.contents (s'.env v).large, x = 0) ∧ (s'.env v).large.len = (s.env v).large.len ∧
      ∀ i j, i < (s.env v).fftLen → j < (s.env v).fftRank → s'.fft (s'.env v).fft i j = 0 := by
  obtain ⟨_, sh, h1, _, h3⟩ := inv_run tr ops s h
  obtain ⟨a, ha, hea⟩ := h3 v
  simp only [step, Option.some.injEq] at hs
  subst hs
  simp only [clearKey, State.fill, State.contents, hea, keyOf, Nat.zero_add, Nat.zero_le, true_and]
  refine ⟨?_, ?_⟩
  · intro x hx
    obtain ⟨j, hj, rfl⟩ := List.mem_map.1 hx
    exact if_pos (List.mem_range.1 hj)
  · intro i j hi hj
    exact if_pos ⟨hi, hj⟩

/-- `NewSecretKeyCustom` gives a zero key of the dimensions, `GenSecretKey` one with the sampled values, `ReadFrom` one with the
values read, and all of them are accepted exactly when the LWE key fits. -/
theorem C48_made (tr : List T → ℕ → F) (s : State T F) (v n k N : ℕ) (vals : ℕ → T) (ffts : ℕ → ℕ → F) :
    ((step tr s (.new v n k N)).isSome ↔ n ≤ k * N) ∧ ((step tr s (.gen v n k N vals)).isSome ↔ n ≤ k * N) ∧
      ((step tr s (.read v (some (n, k, N)) vals ffts)).isSome ↔ n ≤ k * N) ∧
      (∀ s', step tr s (.new v n k N) = some s' → s'.contents (s'.env v).large = List.replicate (k * N) 0) ∧
      (∀ s', step tr s (.gen v n k N vals) = some s' ∨ step tr s (.read v (some (n, k, N)) vals ffts) = some s' →
        (s'.contents (s'.env v).large = (List.range (k * N)).map vals ∧ (s'.env v).lwe.len = n ∧ (s'.env v).glwe.length = k)) := by
  refine ⟨?_, ?_, ?_, ?_, ?_⟩
  · simp only [step, newKey_spec]; split <;> simp [*]
  · simp only [step, genKey, newKey_spec]; split <;> simp [*]
  · simp only [step, readKey, newKey_spec]; split <;> simp [*]
  · intro s' hs
    simp only [step, newKey_spec] at hs
    split at hs
    · rw [← Option.some.inj hs]
      simp only [State.contents, State.set, State.alloc, keyOf, if_true]
      rw [List.map_const', List.length_range]
    · simp at hs
  · intro s' hs
    rcases hs with hs | hs
    · simp only [step, genKey, newKey_spec] at hs
      split at hs
      · rw [Option.map_some] at hs
        rw [← Option.some.inj hs]
        simp only [State.contents, State.transform, State.fill, State.set, State.alloc, keyOf, if_true, Nat.zero_add, Nat.sub_zero]
        refine ⟨?_, trivial, by simp⟩
        exact List.map_congr_left fun j hj => if_pos ⟨trivial, Nat.zero_le _, List.mem_range.1 hj⟩
      · simp at hs
    · simp only [step, readKey, newKey_spec] at hs
      split at hs
      · rw [Option.map_some] at hs
        rw [← Option.some.inj hs]
        simp only [State.contents, State.fill, State.set, State.alloc, keyOf, if_true, Nat.zero_add, Nat.sub_zero]
        refine ⟨?_, trivial, by simp⟩
        exact List.map_congr_left fun j hj => if_pos ⟨trivial, Nat.zero_le _, List.mem_range.1 hj⟩
      · simp at hs

/-! ### The transformed key -/

/-- The operation keeps the transformed key in step: no writes through a view, `CopyFrom` between keys of the same shape, and reading
data in which the transformed key is that of the large key (what `WriteTo` writes for such a key). -/
def Clean (tr : List T → ℕ → F) (s : State T F) : Op T F → Prop
  | .copyFrom dst src => (s.env dst).fftLen = (s.env src).fftLen ∧ (s.env dst).fftRank = (s.env src).fftRank
  | .read _ (some (_, k, N)) vals ffts =>
    ∀ i j, i < k → j < N → ffts i j = tr ((List.range N).map fun t => vals (i * N + t)) j
  | .putLarge _ _ _ => False
  | .putLWE _ _ _ => False
  | .putGLWE _ _ _ _ => False
  | _ => True

/-- A history of clean operations. -/
def CleanRun (tr : List T → ℕ → F) : State T F → List (Op T F) → Prop
  | _, [] => True
  | s, op :: ops => Clean tr s op ∧ ∀ s', step tr s op = some s' → CleanRun tr s' ops

/-- The transformed key in array `id` is that of the large key. -/
def IdOk (tr : List T → ℕ → F) (s : State T F) (id : ℕ) (d : ℕ × ℕ × ℕ) : Prop :=
  ∀ i j, i < d.2.1 → j < d.2.2 → s.fft id i j = tr ((List.range d.2.2).map fun t => s.arr id (i * d.2.2 + t)) j

def FInv (tr : List T → ℕ → F) (s : State T F) : Prop :=
  0 < s.next ∧ ∃ sh : ℕ → ℕ × ℕ × ℕ, (∀ id, (sh id).1 ≤ (sh id).2.1 * (sh id).2.2) ∧
    (∀ id, id < s.next → IdOk tr s id (sh id)) ∧ ∀ v, ∃ id, id < s.next ∧ s.env v = keyOf id (sh id)

theorem fInv_alloc (tr : List T → ℕ → F) {s : State T F} (h : FInv tr s) (v : ℕ) (d : ℕ × ℕ × ℕ) (hd : d.1 ≤ d.2.1 * d.2.2)
    {s' : State T F} (hn : s'.next = s.next + 1) (he : s'.env = (s.set v (keyOf s.next d)).env)
    (hm : ∀ a, a ≠ s.next → s'.arr a = s.arr a ∧ s'.fft a = s.fft a) (hok : IdOk tr s' s.next d) : FInv tr s' := by
  obtain ⟨h0, sh, h1, h2, h3⟩ := h
  refine ⟨by omega, fun id => if id = s.next then d else sh id, ?_, ?_, ?_⟩
  · intro id
    simp only
    split
    · exact hd
    · exact h1 id
  · intro id hid
    simp only
    split
    · rename_i e; rw [e]; exact hok
    · rename_i e
      obtain ⟨ea, ef⟩ := hm id e
      unfold IdOk
      rw [ea, ef]
      exact h2 id (by omega)
  · intro u
    rw [he]
    by_cases hu : u = v
    · exact ⟨s.next, by omega, by simp [State.set, hu]⟩
    · obtain ⟨id, hid, he'⟩ := h3 u
      refine ⟨id, by omega, ?_⟩
      simp only [State.set, if_neg hu]
      rw [if_neg (by omega)]; exact he'

theorem fInv_step (tr : List T → ℕ → F) (htr : ∀ N j, tr ((List.range N).map fun _ => 0) j = 0) {s s' : State T F} (op : Op T F)
    (h : FInv tr s) (hc : Clean tr s op) (hs : step tr s op = some s') : FInv tr s' := by
  have hzero : ∀ (d : ℕ × ℕ × ℕ) (s : State T F) (id : ℕ), (∀ j, j < d.2.1 * d.2.2 → s.arr id j = 0) →
      (∀ i j, i < d.2.1 → j < d.2.2 → s.fft id i j = 0) → IdOk tr s id d := by
    intro d s id ha hf i j hi hj
    rw [hf i j hi hj, ← htr d.2.2 j]
    congr 1
    refine List.map_congr_left fun t ht => (ha _ ?_).symm
    have := chunk_le (N := d.2.2) hi
    have e : (i + 1) * d.2.2 = i * d.2.2 + d.2.2 := by ring
    have := List.mem_range.1 ht
    omega
  cases op with
  | new v n k N =>
    simp only [step, newKey_spec] at hs
    split at hs
    · rename_i hd
      rw [← Option.some.inj hs]
      refine fInv_alloc tr h v (n, k, N) hd rfl rfl (fun a ha => ⟨if_neg ha, if_neg ha⟩) (hzero _ _ _ ?_ ?_)
      · intro j _; simp [State.set, State.alloc]
      · intro i j _ _; simp [State.set, State.alloc]
    · simp at hs
  | gen v n k N vals =>
    simp only [step, genKey, newKey_spec] at hs
    split at hs
    · rename_i hd
      rw [Option.map_some] at hs
      rw [← Option.some.inj hs]
      refine fInv_alloc tr h v (n, k, N) hd rfl rfl (fun a ha => ?_) ?_
      · constructor
        · funext j
          simp only [State.transform, State.fill, State.set, State.alloc, if_true]
          rw [if_neg (fun c => ha c.1), if_neg ha]
        · funext i j
          simp only [State.transform, State.fill, State.set, State.alloc, if_true]
          rw [if_neg (fun c => ha c.1), if_neg ha]
      · intro i j hi hj
        have hi : i < k := hi
        have hj : j < N := hj
        simp only [State.transform, State.set, State.fill, State.alloc, if_true]
        rw [keyOf_getD _ _ i hi]
        rw [if_pos ⟨rfl, hi, hj⟩]
        simp only [State.contents, if_true]
    · simp at hs
  | copy dst src =>
    obtain ⟨h0, sh, h1, h2, h3⟩ := id h
    obtain ⟨id, hid, he⟩ := h3 src
    simp only [step, he, copyKey_spec s dst id (sh id) (h1 id)] at hs
    rw [← Option.some.inj hs]
    refine fInv_alloc tr h dst _ (h1 id) rfl rfl (fun a ha => ⟨if_neg ha, if_neg ha⟩) ?_
    intro i j hi hj
    simp only [State.set, State.alloc, if_true]
    rw [h2 id hid i j hi hj]
    congr 1
    refine List.map_congr_left fun t ht => (if_pos ?_).symm
    have := chunk_le (N := (sh id).2.2) hi
    have e : (i + 1) * (sh id).2.2 = i * (sh id).2.2 + (sh id).2.2 := by ring
    have := List.mem_range.1 ht
    omega
  | assign dst src =>
    obtain ⟨h0, sh, h1, h2, h3⟩ := h
    simp only [step, Option.some.injEq] at hs
    subst hs
    refine ⟨h0, sh, h1, h2, fun u => ?_⟩
    by_cases hu : u = dst
    · obtain ⟨id, hid, he⟩ := h3 src
      exact ⟨id, hid, by simp [State.set, hu, he]⟩
    · obtain ⟨id, hid, he⟩ := h3 u
      exact ⟨id, hid, by simp [State.set, hu, he]⟩
  | copyFrom dst src =>
    obtain ⟨h0, sh, h1, h2, h3⟩ := h
    obtain ⟨a, ha, hea⟩ := h3 dst
    obtain ⟨b, hb, heb⟩ := h3 src
    obtain ⟨c1, c2⟩ := hc
    rw [hea, heb] at c1 c2
    have c1 : (sh a).2.1 = (sh b).2.1 := c1
    have c2 : (sh a).2.2 = (sh b).2.2 := c2
    simp only [step, copyFromKey] at hs
    split at hs
    · rw [← Option.some.inj hs]
      refine ⟨h0, sh, h1, fun id hid => ?_, h3⟩
      intro i j hi hj
      simp only [hea, heb, keyOf, Nat.zero_add, Nat.zero_le, true_and, Nat.sub_zero, ← c1, ← c2, min_self]
      by_cases hida : id = a
      · subst hida
        rw [if_pos ⟨rfl, hi, hj⟩, h2 b hb i j (c1 ▸ hi) (c2 ▸ hj), ← c2]
        congr 1
        refine List.map_congr_left fun t ht => (if_pos ⟨rfl, ?_⟩).symm
        have := chunk_le (N := (sh id).2.2) hi
        have e : (i + 1) * (sh id).2.2 = i * (sh id).2.2 + (sh id).2.2 := by ring
        have := List.mem_range.1 ht
        omega
      · rw [if_neg (fun c => hida c.1), h2 id hid i j hi hj]
        congr 1
        exact List.map_congr_left fun t _ => (if_neg (fun c => hida c.1)).symm
    · simp at hs
  | clear v =>
    obtain ⟨h0, sh, h1, h2, h3⟩ := h
    obtain ⟨a, ha, hea⟩ := h3 v
    simp only [step, Option.some.injEq] at hs
    subst hs
    refine ⟨h0, sh, h1, fun id hid => ?_, h3⟩
    by_cases hida : id = a
    · subst hida
      refine hzero _ _ _ ?_ ?_
      · intro j hj
        simp only [clearKey, State.fill, hea, keyOf, Nat.zero_add, Nat.zero_le, true_and]
        exact if_pos hj
      · intro i j hi hj
        simp only [clearKey, hea, keyOf]
        exact if_pos ⟨trivial, hi, hj⟩
    · intro i j hi hj
      simp only [clearKey, State.fill, hea, keyOf]
      rw [if_neg (fun c => hida c.1), h2 id hid i j hi hj]
      congr 1
      exact List.map_congr_left fun t _ => (if_neg (fun c => hida c.1)).symm
  | read v header vals ffts =>
    simp only [step, readKey] at hs
    split at hs
    · rw [← Option.some.inj hs]; exact h
    · rename_i n k N
      have hc : ∀ i j, i < k → j < N → ffts i j = tr ((List.range N).map fun t => vals (i * N + t)) j := hc
      rw [newKey_spec] at hs
      split at hs
      · rename_i hd
        rw [Option.map_some] at hs
        rw [← Option.some.inj hs]
        refine fInv_alloc tr h v (n, k, N) hd rfl rfl (fun a ha => ?_) ?_
        · constructor
          · funext j
            simp only [State.fill, State.set, State.alloc, if_true]
            rw [if_neg (fun c => ha c.1), if_neg ha]
          · funext i j
            simp only [State.fill, State.set, State.alloc, if_true]
            rw [if_neg (fun c => ha c.1), if_neg ha]
        · intro i j hi hj
          have hi : i < k := hi
          have hj : j < N := hj
          simp only [State.set, State.fill, State.alloc, if_true]
          rw [if_pos ⟨rfl, hi, hj⟩, hc i j hi hj]
          congr 1
          refine List.map_congr_left fun t ht => ?_
          have := chunk_le (N := N) hi
          have e : (i + 1) * N = i * N + N := by ring
          have := List.mem_range.1 ht
          have hcond : s.next = (keyOf s.next (n, k, N)).large.arr ∧ (keyOf s.next (n, k, N)).large.off ≤ i * N + t ∧
              i * N + t < (keyOf s.next (n, k, N)).large.off + (keyOf s.next (n, k, N)).large.len :=
            ⟨rfl, Nat.zero_le _, show i * N + t < 0 + k * N by omega⟩
          rw [if_pos hcond]
          rfl
      · simp at hs
  | putLarge v i x => exact absurd hc (by simp [Clean])
  | putLWE v i x => exact absurd hc (by simp [Clean])
  | putGLWE v i j x => exact absurd hc (by simp [Clean])

/-- **The transformed key.**  In a history of clean operations the transformed key of every variable is the transform of its GLWE
key. -/
theorem C48_fft (tr : List T → ℕ → F) (htr : ∀ N j, tr ((List.range N).map fun _ => 0) j = 0) (ops : List (Op T F)) (s : State T F)
    (hc : CleanRun tr State.init ops) (h : run tr ops = some s) (v : ℕ) : FftOk tr s (s.env v) := by
  have hf : FInv tr s := by
    have : ∀ (ops : List (Op T F)) (s0 s1 : State T F), FInv tr s0 → CleanRun tr s0 ops →
        ops.foldlM (step tr) s0 = some s1 → FInv tr s1 := by
      intro ops
      induction ops with
      | nil => intro s0 s1 h1 _ h3; rw [List.foldlM_nil] at h3; exact Option.some.inj h3 ▸ h1
      | cons op ops ih =>
        intro s0 s1 h1 h2 h3
        rw [List.foldlM_cons] at h3
        obtain ⟨c, e1, e2⟩ := Option.bind_eq_some_iff.1 h3
        exact ih c s1 (fInv_step tr htr op h1 h2.1 e1) (h2.2 c e1) e2
    refine this ops _ s ⟨Nat.one_pos, fun _ => (0, 0, 0), fun _ => Nat.zero_le _, ?_, fun _ => ⟨0, Nat.one_pos, rfl⟩⟩ hc h
    intro id _ i j hi _
    exact absurd hi (Nat.not_lt_zero _)
  obtain ⟨_, sh, h1, h2, h3⟩ := hf
  obtain ⟨id, hid, he⟩ := h3 v
  rw [he]
  refine ⟨by simp [keyOf], ?_⟩
  intro i j sl hsl
  obtain ⟨hi, rfl⟩ := keyOf_get id _ i sl hsl
  refine ⟨rfl, fun hj => ?_⟩
  exact h2 id hid i j hi hj

end

/-! ### A concrete history -/

/-- A key with two polynomials of rank 2 and an LWE key of length 3 is generated and copied; a write through the second polynomial
of the original is seen in its LWE key and not in the copy. -/
def exOps : List (Op ℕ ℕ) := [.gen 0 3 2 2 (fun i => i + 1), .copy 1 0, .putGLWE 0 1 0 9]

/-- The transform of the example: multiplication by ten. -/
def exTr (l : List ℕ) (j : ℕ) : ℕ := 10 * l.getD j 0

example : (run exTr exOps).map (fun s => (s.contents (s.env 0).lwe, s.contents (s.env 0).large, s.contents (s.env 1).lwe,
    (s.env 1).glwe.map s.contents)) = some ([1, 2, 9], [1, 2, 9, 4], [1, 2, 3], [[1, 2], [3, 4]]) := by decide

example : CleanRun exTr State.init (exOps.take 2) ∧
    (run exTr (exOps.take 2)).map (fun s => ((s.fft (s.env 1).fft 0 0), (s.fft (s.env 1).fft 1 1))) = some (10, 40) := by
  refine ⟨?_, by decide⟩
  refine ⟨trivial, fun _ _ => ⟨trivial, fun _ _ => trivial⟩⟩

/-- `CopyFrom` between keys of different shape succeeds when there are enough polynomials, but leaves a transformed key that is not
that of the GLWE key; this is why `Clean` asks for equal shapes. -/
theorem C48_copyFrom_shape : ∃ (ops : List (Op ℕ ℕ)) (s : State ℕ ℕ), run exTr ops = some s ∧ ¬ FftOk exTr s (s.env 0) := by
  refine ⟨[.gen 0 1 1 4 (fun i => i + 1), .gen 1 1 2 2 (fun i => i + 5), .copyFrom 0 1],
    (run exTr [.gen 0 1 1 4 (fun i => i + 1), .gen 1 1 2 2 (fun i => i + 5), .copyFrom 0 1]).get (by decide), by simp, ?_⟩
  rintro ⟨-, h⟩
  have := (h 0 2 ⟨1, 0, 4⟩ (by decide)).2 (by decide)
  revert this
  decide

end Tfhe
