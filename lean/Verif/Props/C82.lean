import Verif.Model.Builders
import Verif.Props.C23

/-!
# C82: changing fields of a parameter literal, and the gadget accessors
-/
namespace Tfhe

/-! ### Specification -/

/-- The value that the last of the calls gives for one field, or the old value if none sets it. -/
def lastOf {α β : Type} (val : α → Option β) (calls : List α) (old : β) : β := (calls.filterMap val).getLast?.getD old

/-- The value a call gives for a field. -/
def Change.lweDimension? {w : ℕ} : Change w → Option (BitVec 64) | .lweDimension v => some v | _ => none
def Change.glweRank? {w : ℕ} : Change w → Option (BitVec 64) | .glweRank v => some v | _ => none
def Change.polyRank? {w : ℕ} : Change w → Option (BitVec 64) | .polyRank v => some v | _ => none
def Change.lutSize? {w : ℕ} : Change w → Option (BitVec 64) | .lutSize v => some v | _ => none
def Change.lweStdDev? {w : ℕ} : Change w → Option (BitVec 64) | .lweStdDev v => some v | _ => none
def Change.glweStdDev? {w : ℕ} : Change w → Option (BitVec 64) | .glweStdDev v => some v | _ => none
def Change.blockSize? {w : ℕ} : Change w → Option (BitVec 64) | .blockSize v => some v | _ => none
def Change.messageModulus? {w : ℕ} : Change w → Option (BitVec w) | .messageModulus v => some v | _ => none
def Change.blindRotateParams? {w : ℕ} : Change w → Option (GadgetLit w) | .blindRotateParams v => some v | _ => none
def Change.keySwitchParams? {w : ℕ} : Change w → Option (GadgetLit w) | .keySwitchParams v => some v | _ => none
def Change.bootstrapOrder? {w : ℕ} : Change w → Option (BitVec 64) | .bootstrapOrder v => some v | _ => none

/-! ### Sequences of calls -/

theorem foldl_field {S α β : Type} (set : S → α → S) (get : S → β) (val : α → Option β)
    (h : ∀ s a, get (set s a) = (val a).getD (get s)) : ∀ (calls : List α) (s : S),
      get (calls.foldl set s) = lastOf val calls (get s)
  | [], s => rfl
  | a :: calls, s => by
    rw [List.foldl_cons, foldl_field set get val h calls, h]
    unfold lastOf
    cases hv : val a with
    | none => rw [List.filterMap_cons_none hv]; rfl
    | some v =>
      rw [List.filterMap_cons_some hv, List.getLast?_cons]
      simp

/-- **C82 (single-key literals).**  After any sequence of calls every field has the value of the last call for it, and a field
without a call has its old value. -/
theorem C82_calls {w : ℕ} (p : ParamsLit w) (calls : List (Change w)) :
    calls.foldl ParamsLit.change p =
      { lweDimension := lastOf Change.lweDimension? calls p.lweDimension
        glweRank := lastOf Change.glweRank? calls p.glweRank
        polyRank := lastOf Change.polyRank? calls p.polyRank
        lutSize := lastOf Change.lutSize? calls p.lutSize
        lweStdDev := lastOf Change.lweStdDev? calls p.lweStdDev
        glweStdDev := lastOf Change.glweStdDev? calls p.glweStdDev
        blockSize := lastOf Change.blockSize? calls p.blockSize
        messageModulus := lastOf Change.messageModulus? calls p.messageModulus
        blindRotateParams := lastOf Change.blindRotateParams? calls p.blindRotateParams
        keySwitchParams := lastOf Change.keySwitchParams? calls p.keySwitchParams
        bootstrapOrder := lastOf Change.bootstrapOrder? calls p.bootstrapOrder } := by
  rw [← foldl_field ParamsLit.change ParamsLit.lweDimension _ (fun s a => by cases a <;> rfl),
    ← foldl_field ParamsLit.change ParamsLit.glweRank _ (fun s a => by cases a <;> rfl),
    ← foldl_field ParamsLit.change ParamsLit.polyRank _ (fun s a => by cases a <;> rfl),
    ← foldl_field ParamsLit.change ParamsLit.lutSize _ (fun s a => by cases a <;> rfl),
    ← foldl_field ParamsLit.change ParamsLit.lweStdDev _ (fun s a => by cases a <;> rfl),
    ← foldl_field ParamsLit.change ParamsLit.glweStdDev _ (fun s a => by cases a <;> rfl),
    ← foldl_field ParamsLit.change ParamsLit.blockSize _ (fun s a => by cases a <;> rfl),
    ← foldl_field ParamsLit.change ParamsLit.messageModulus _ (fun s a => by cases a <;> rfl),
    ← foldl_field ParamsLit.change ParamsLit.blindRotateParams _ (fun s a => by cases a <;> rfl),
    ← foldl_field ParamsLit.change ParamsLit.keySwitchParams _ (fun s a => by cases a <;> rfl),
    ← foldl_field ParamsLit.change ParamsLit.bootstrapOrder _ (fun s a => by cases a <;> rfl)]

/-- The call of the single-key package that a call of the multi-key package makes on the sub-parameters. -/
def MKChange.sub? {w : ℕ} : MKChange w → Option (Change w)
  | .lweDimension v => some (.lweDimension v)
  | .polyRank v => some (.polyRank v)
  | .lweStdDev v => some (.lweStdDev v)
  | .glweStdDev v => some (.glweStdDev v)
  | .blockSize v => some (.blockSize v)
  | .messageModulus v => some (.messageModulus v)
  | .blindRotateParams v => some (.blindRotateParams v)
  | .keySwitchParams v => some (.keySwitchParams v)
  | .bootstrapOrder v => some (.bootstrapOrder v)
  | .partyCount _ => none
  | .accumulatorParams _ => none
  | .relinKeyParams _ => none
def MKChange.partyCount? {w : ℕ} : MKChange w → Option (BitVec 64) | .partyCount v => some v | _ => none
def MKChange.accumulatorParams? {w : ℕ} : MKChange w → Option (GadgetLit w) | .accumulatorParams v => some v | _ => none
def MKChange.relinKeyParams? {w : ℕ} : MKChange w → Option (GadgetLit w) | .relinKeyParams v => some v | _ => none

/-- **C82 (multi-key literals).** -/
theorem C82_mk_calls {w : ℕ} (p : MKParamsLit w) (calls : List (MKChange w)) :
    calls.foldl MKParamsLit.change p =
      { subParams := (calls.filterMap MKChange.sub?).foldl ParamsLit.change p.subParams
        partyCount := lastOf MKChange.partyCount? calls p.partyCount
        accumulatorParams := lastOf MKChange.accumulatorParams? calls p.accumulatorParams
        relinKeyParams := lastOf MKChange.relinKeyParams? calls p.relinKeyParams } := by
  have hs : ∀ (calls : List (MKChange w)) (p : MKParamsLit w), (calls.foldl MKParamsLit.change p).subParams =
      (calls.filterMap MKChange.sub?).foldl ParamsLit.change p.subParams := by
    intro calls
    induction calls with
    | nil => intro p; rfl
    | cons a calls ih => intro p; rw [List.foldl_cons, ih]; cases a <;> rfl
  rw [← hs, ← foldl_field MKParamsLit.change MKParamsLit.partyCount _ (fun s a => by cases a <;> rfl),
    ← foldl_field MKParamsLit.change MKParamsLit.accumulatorParams _ (fun s a => by cases a <;> rfl),
    ← foldl_field MKParamsLit.change MKParamsLit.relinKeyParams _ (fun s a => by cases a <;> rfl)]

/-- Gadget literals. -/
theorem C82_gadget_calls {w : ℕ} (p : GadgetLit w) (b : BitVec w) (l : BitVec 64) :
    p.withBase b = ⟨b, p.level⟩ ∧ p.withLevel l = ⟨p.base, l⟩ := ⟨rfl, rfl⟩

/-! ### Changing compiled parameters -/

theorem compile_of_defaults {w : ℕ} (impl : BitVec w) (p q : ParamsLit w) (h : p.defaults = q.defaults) :
    p.compile impl = q.compile impl := by
  unfold ParamsLit.compile
  rw [h]

theorem literal_defaults {w : ℕ} (impl : BitVec w) (lit : ParamsLit w) (p : Params w)
    (h : lit.compile impl = some p) : p.literal = lit.defaults := by
  obtain ⟨hb, lr, br, ks, hlr, hbr, hks, hp⟩ := compile_inv impl lit p h
  subst hp
  unfold Params.literal
  simp only [gadget_literal _ _ hbr, gadget_literal _ _ hks]
  rfl

/-- **C82 (changing compiled parameters).**  The calls on `Literal()` of compiled parameters compile to the same as on the literal
they were made from, and panic exactly if these panic, unless the table size was left to its default and the calls change the
degree without setting the table size. -/
theorem C82_recompile_partial {w : ℕ} (impl : BitVec w) (lit : ParamsLit w) (p : Params w) (h : lit.compile impl = some p)
    (calls : List (Change w))
    (hc : lit.lutSize ≠ 0 ∨ calls.filterMap Change.polyRank? = [] ∨ calls.filterMap Change.lutSize? ≠ []) :
    (calls.foldl ParamsLit.change p.literal).compile impl = (calls.foldl ParamsLit.change lit).compile impl := by
  apply compile_of_defaults
  rw [literal_defaults impl lit p h, C82_calls, C82_calls]
  unfold ParamsLit.defaults
  simp only [ParamsLit.mk.injEq, true_and, and_true]
  refine ⟨?_, ?_⟩
  · unfold lastOf
    cases hL : (calls.filterMap Change.lutSize?).getLast? with
    | some v => simp
    | none =>
      rw [List.getLast?_eq_none_iff] at hL
      simp only [Option.getD_none]
      by_cases h0 : lit.lutSize = 0
      · rcases hc with hc | hc | hc
        · exact absurd h0 hc
        · simp [hc, h0]
        · exact absurd hL hc
      · simp only [if_neg h0]
  · unfold lastOf
    cases hB : (calls.filterMap Change.blockSize?).getLast? with
    | some v => simp
    | none =>
      simp only [Option.getD_none]
      by_cases h0 : lit.blockSize = 0
      · simp [h0]
      · simp only [if_neg h0]

/-- `Literal()` writes the default table size out, so a larger degree for compiled parameters is refused. -/
theorem C82_larger_degree {w : ℕ} (impl : BitVec w) (p : Params w) (N : BitVec 64) (h0 : p.lutSize ≠ 0)
    (hN : p.lutSize.toInt < N.toInt) : (p.literal.withPolyRank N).compile impl = none := by
  rw [Option.eq_none_iff_forall_ne_some]
  intro q hq
  obtain ⟨hb, _⟩ := compile_inv impl _ q hq
  obtain ⟨_, _, _, a4, _⟩ := (bad_eq_false_iff _).1 hb
  have e1 : (p.literal.withPolyRank N).defaults.lutSize = p.lutSize := by
    show (if p.lutSize = 0 then N else p.lutSize) = p.lutSize
    rw [if_neg h0]
  have e2 : (p.literal.withPolyRank N).defaults.polyRank = N := rfl
  rw [e1, e2] at a4
  omega

/-- **C82 (multi-key degree).**  In the multi-key package, which has no function to set the table size, `WithPolyRank` on `Literal()`
of compiled parameters panics in `Compile` for every other degree, whatever other calls are made. -/
theorem C82_mk_degree_false {w : ℕ} (impl : BitVec w) (lit : MKParamsLit w) (p : MKParams w) (h : lit.compile impl = some p)
    (calls : List (MKChange w)) (hN : (calls.foldl MKParamsLit.change p.literal).subParams.polyRank ≠ p.subParams.polyRank) :
    (calls.foldl MKParamsLit.change p.literal).compile impl = none := by
  have hp : p.subParams.lutSize = p.subParams.polyRank ∧ p.subParams.lutSize ≠ 0 := by
    unfold MKParamsLit.compile at h
    rw [Option.bind_eq_some_iff] at h
    obtain ⟨sub, hs, h⟩ := h
    split at h
    · simp at h
    split at h
    · simp at h
    split at h
    · simp at h
    rename_i h1 h2 h3
    rw [Option.bind_eq_some_iff] at h
    obtain ⟨acc, hacc, h⟩ := h
    rw [Option.bind_eq_some_iff] at h
    obtain ⟨rel, hrel, h⟩ := h
    simp only [Option.some.injEq] at h
    subst h
    have e : sub.lutSize = sub.polyRank := by simpa using h3
    refine ⟨e, ?_⟩
    obtain ⟨hb, lr, br, ks, _, _, _, hq⟩ := compile_inv impl _ sub hs
    obtain ⟨_, _, _, _, _, _, _, _, _, ⟨k, a10⟩, _⟩ := (bad_eq_false_iff _).1 hb
    have e2 : sub.polyRank = lit.subParams.defaults.polyRank := by rw [hq]; rfl
    intro hc
    rw [← e2, ← e, hc] at a10
    have hpos : (0 : ℤ) < 2 ^ k := by positivity
    have hz : ((0 : BitVec 64).toInt) = 0 := by decide
    rw [hz] at a10
    omega
  rw [Option.eq_none_iff_forall_ne_some]
  intro q hq
  set lit' := calls.foldl MKParamsLit.change p.literal with hl
  have hlut : lit'.subParams.lutSize = p.subParams.lutSize := by
    rw [hl, C82_mk_calls, C82_calls]
    have : (calls.filterMap MKChange.sub?).filterMap Change.lutSize? = [] := by
      rw [List.filterMap_filterMap, List.filterMap_eq_nil_iff]
      intro a _
      cases a <;> rfl
    simp only [lastOf, this]
    rfl
  unfold MKParamsLit.compile at hq
  rw [Option.bind_eq_some_iff] at hq
  obtain ⟨sub, hs, hq⟩ := hq
  obtain ⟨_, lr, br, ks, _, _, _, hsub⟩ := compile_inv impl _ sub hs
  have e1 : sub.polyRank = lit'.subParams.polyRank := by rw [hsub]
  have e2 : sub.lutSize = lit'.subParams.lutSize := by
    rw [hsub]
    show (if lit'.subParams.lutSize = 0 then lit'.subParams.polyRank else lit'.subParams.lutSize) = lit'.subParams.lutSize
    rw [if_neg (by rw [hlut]; exact hp.2)]
  split at hq
  · simp at hq
  split at hq
  · simp at hq
  split at hq
  · simp at hq
  rename_i h3
  rw [e1, e2, hlut, hp.1] at h3
  exact hN (by simpa using Eq.symm (not_not.1 h3))

/-! ### Gadget accessors -/

theorem goOneShl_of {w : ℕ} (s : BitVec 64) (k : ℕ) (hk : k < 2 ^ 63) (h : s.toNat = k) : goOneShl w s = some (1#w <<< k) := by
  have : ¬ s.toInt < 0 := by
    rw [BitVec.toInt_eq_toNat_cond, h]
    split <;> omega
  rw [goOneShl, if_neg this, h]

theorem one_shl_toNat (w k : ℕ) (h : k < w) : (1#w <<< k).toNat = 2 ^ k := by
  rw [BitVec.toNat_shiftLeft, BitVec.toNat_ofNat, Nat.mod_eq_of_lt (Nat.one_lt_two_pow (by omega)), Nat.shiftLeft_eq, one_mul,
    Nat.mod_eq_of_lt (Nat.pow_lt_pow_right (by norm_num) h)]

/-- **C82 (gadget accessors).**  For a valid gadget and `i` below its level, `BaseQ(i)` does not panic and is exactly `Q / Base^(i+1)`,
whose logarithm is `LogBaseQ(i)`; `FirstBaseQ` and `LastBaseQ` are its first and last value. -/
theorem C82_baseQ {w : ℕ} (hw : w < 2 ^ 62) (g : GadgetParams w) (hg : g.Valid) (i : ℕ) (hi : i < g.level) :
    ∃ x, g.baseQInt (BitVec.ofNat 64 i) = some x ∧ x.toNat * g.base.toNat ^ (i + 1) = 2 ^ w ∧
      (g.logBaseQInt (BitVec.ofNat 64 i)).toNat = w - (i + 1) * g.logBase ∧ x.toNat = 2 ^ (w - (i + 1) * g.logBase) ∧
      (i = 0 → g.firstBaseQInt = some x) ∧ (i + 1 = g.level → g.lastBaseQInt = some x) := by
  obtain ⟨h1, h2, h3, h4⟩ := hg
  have hle : (i + 1) * g.logBase ≤ w := le_trans (by rw [mul_comm]; exact Nat.mul_le_mul_left _ hi) h4
  have hb : g.logBase ≤ w := le_trans (Nat.le_mul_of_pos_right _ h3) h4
  have hl : g.level ≤ w := le_trans (Nat.le_mul_of_pos_left _ h1) h4
  have key : ∀ m : ℕ, m ≤ w → (BitVec.ofNat 64 w - BitVec.ofNat 64 m).toNat = w - m := by
    intro m hm
    rw [BitVec.toNat_sub, BitVec.toNat_ofNat, BitVec.toNat_ofNat, Nat.mod_eq_of_lt (by omega : w < 2 ^ 64),
      Nat.mod_eq_of_lt (by omega : m < 2 ^ 64)]
    omega
  have e1 : (BitVec.ofNat 64 i + 1) * BitVec.ofNat 64 g.logBase = BitVec.ofNat 64 ((i + 1) * g.logBase) := by
    apply BitVec.eq_of_toNat_eq
    simp [BitVec.toNat_mul, BitVec.toNat_add, Nat.mul_mod]
  have hpos : 0 < (i + 1) * g.logBase := Nat.mul_pos (by omega) h1
  have hlog : (g.logBaseQInt (BitVec.ofNat 64 i)).toNat = w - (i + 1) * g.logBase := by
    rw [GadgetParams.logBaseQInt, e1, key _ hle]
  have hx : (1#w <<< (w - (i + 1) * g.logBase)).toNat = 2 ^ (w - (i + 1) * g.logBase) := one_shl_toNat w _ (by omega)
  refine ⟨1#w <<< (w - (i + 1) * g.logBase), goOneShl_of _ _ (by omega) hlog, ?_, hlog, hx, ?_, ?_⟩
  · rw [hx, h2, ← pow_mul, ← pow_add, mul_comm g.logBase]
    congr 1
    omega
  · rintro rfl
    rw [GadgetParams.firstBaseQInt, goOneShl_of _ (w - g.logBase) (by omega) (key _ hb)]
    simp
  · intro hil
    have e2 : BitVec.ofNat 64 g.level * BitVec.ofNat 64 g.logBase = BitVec.ofNat 64 ((i + 1) * g.logBase) := by
      rw [hil]
      apply BitVec.eq_of_toNat_eq
      simp [BitVec.toNat_mul, Nat.mul_mod]
    rw [GadgetParams.lastBaseQInt, e2, goOneShl_of _ _ (by omega) (key _ hle)]

/-! ### Witnesses -/

theorem exLit_compiles (N : BitVec 64) (h : N = 512 ∨ N = 1024) : ((exLit.withPolyRank N).compile 0).isSome := by
  have ho : (exLit.withPolyRank N).NoOverflow := by
    rcases h with rfl | rfl <;>
    exact ⟨by decide +kernel, by decide +kernel, by decide +kernel,
      exLit_gadget _ 18 _ (by decide +kernel) (by decide +kernel),
      exLit_gadget _ 4 _ (by decide +kernel) (by decide +kernel)⟩
  have hv : (exLit.withPolyRank N).Valid := by
    refine ⟨by rcases h with rfl | rfl <;> decide +kernel, by rcases h with rfl | rfl <;> decide +kernel, ?_,
      by rcases h with rfl | rfl <;> decide +kernel, by rcases h with rfl | rfl <;> decide +kernel,
      by unfold f64Pos; rcases h with rfl | rfl <;> decide +kernel, by unfold f64Pos; rcases h with rfl | rfl <;> decide +kernel,
      by rcases h with rfl | rfl <;> decide +kernel,
      ⟨⟨18, by norm_num, by rcases h with rfl | rfl <;> decide +kernel⟩, by rcases h with rfl | rfl <;> decide +kernel,
        by rcases h with rfl | rfl <;> decide +kernel⟩,
      ⟨⟨4, by norm_num, by rcases h with rfl | rfl <;> decide +kernel⟩, by rcases h with rfl | rfl <;> decide +kernel,
        by rcases h with rfl | rfl <;> decide +kernel⟩, by rcases h with rfl | rfl <;> decide +kernel⟩
    rcases h with rfl | rfl
    · exact ⟨9, by decide +kernel⟩
    · exact ⟨10, by decide +kernel⟩
  exact (C23_compile_partial (by norm_num) 0 _ ho).2 hv

/-- The full statement is false: with the table size left to its default, the degree 1024 instead of 512 is accepted for the
literal, and refused for `Literal()` of the compiled parameters. -/
theorem C82_recompile_false : ¬ ∀ (lit : ParamsLit 32) (p : Params 32), lit.compile 0 = some p → ∀ calls : List (Change 32),
    (calls.foldl ParamsLit.change p.literal).compile 0 = (calls.foldl ParamsLit.change lit).compile 0 := by
  intro h
  obtain ⟨p, hp⟩ := Option.isSome_iff_exists.1 (exLit_compiles 512 (Or.inl rfl))
  have hp' : exLit.compile 0 = some p := hp
  have hl : p.lutSize = 512 := by
    obtain ⟨_, lr, br, ks, _, _, _, hq⟩ := compile_inv _ _ _ hp'
    rw [hq]
    rfl
  have h1 := h exLit p hp' [.polyRank 1024]
  have h2 : (p.literal.withPolyRank 1024).compile 0 = none :=
    C82_larger_degree 0 p 1024 (by rw [hl]; decide) (by rw [hl]; decide)
  have h3 := exLit_compiles 1024 (Or.inr rfl)
  have e : (exLit.withPolyRank 1024).compile 0 = none := h1.symm.trans h2
  rw [e] at h3
  simp at h3

/-- A multi-key literal with the degree `N`. -/
def exMKDegree (N : BitVec 64) : MKParamsLit 32 :=
  { subParams := { exLit with glweRank := 1, polyRank := N }, partyCount := 2, accumulatorParams := ⟨0x100, 2⟩
    relinKeyParams := ⟨0x100, 2⟩ }

theorem exMKDegree_compiles (N : BitVec 64) (h : N = 1024 ∨ N = 2048) : ((exMKDegree N).compile 0).isSome := by
  have ho : (exMKDegree N).subParams.NoOverflow := by
    rcases h with rfl | rfl <;>
    exact ⟨by decide +kernel, by decide +kernel, by decide +kernel,
      exLit_gadget _ 18 _ (by decide +kernel) (by decide +kernel),
      exLit_gadget _ 4 _ (by decide +kernel) (by decide +kernel)⟩
  have hv : (exMKDegree N).subParams.Valid := by
    refine ⟨by rcases h with rfl | rfl <;> decide +kernel, by rcases h with rfl | rfl <;> decide +kernel, ?_,
      by rcases h with rfl | rfl <;> decide +kernel, by rcases h with rfl | rfl <;> decide +kernel,
      by unfold f64Pos; rcases h with rfl | rfl <;> decide +kernel, by unfold f64Pos; rcases h with rfl | rfl <;> decide +kernel,
      by rcases h with rfl | rfl <;> decide +kernel,
      ⟨⟨18, by norm_num, by rcases h with rfl | rfl <;> decide +kernel⟩, by rcases h with rfl | rfl <;> decide +kernel,
        by rcases h with rfl | rfl <;> decide +kernel⟩,
      ⟨⟨4, by norm_num, by rcases h with rfl | rfl <;> decide +kernel⟩, by rcases h with rfl | rfl <;> decide +kernel,
        by rcases h with rfl | rfl <;> decide +kernel⟩, by rcases h with rfl | rfl <;> decide +kernel⟩
    rcases h with rfl | rfl
    · exact ⟨10, by decide +kernel⟩
    · exact ⟨11, by decide +kernel⟩
  have hgo : (⟨0x100, 2⟩ : GadgetLit 32).NoOverflow := exLit_gadget _ 8 _ (by decide +kernel) (by decide +kernel)
  have hgv : (⟨0x100, 2⟩ : GadgetLit 32).Valid := ⟨⟨8, by norm_num, by decide +kernel⟩, by decide +kernel, by decide +kernel⟩
  refine (C23_mk_partial (by norm_num) 0 _ ho hgo hgo).2 ⟨hv, ?_, ?_, ?_, hgv, hgv⟩ <;>
    rcases h with rfl | rfl <;> decide +kernel

/-- The degree 2048 is accepted for the multi-key literal that was compiled with 1024, and `Literal()` of the result refuses it. -/
example : ((exMKDegree 1024).withPolyRank 2048).compile 0 ≠ none ∧
    ∀ p, (exMKDegree 1024).compile 0 = some p → (p.literal.withPolyRank 2048).compile 0 = none := by
  refine ⟨?_, fun p hp => C82_mk_degree_false 0 _ p hp [.polyRank 2048] ?_⟩
  · exact Option.isSome_iff_ne_none.1 (exMKDegree_compiles 2048 (Or.inr rfl))
  · have e : p.subParams.polyRank = 1024 := by
      unfold MKParamsLit.compile at hp
      rw [Option.bind_eq_some_iff] at hp
      obtain ⟨sub, hs, hp⟩ := hp
      obtain ⟨_, lr, br, ks, _, _, _, hq⟩ := compile_inv _ _ _ hs
      have e1 : sub.polyRank = 1024 := by rw [hq]; rfl
      split at hp
      · simp at hp
      split at hp
      · simp at hp
      split at hp
      · simp at hp
      rw [Option.bind_eq_some_iff] at hp
      obtain ⟨acc, hacc, hp⟩ := hp
      rw [Option.bind_eq_some_iff] at hp
      obtain ⟨rel, hrel, hp⟩ := hp
      rw [← Option.some.inj hp]
      exact e1
    rw [e]
    show (2048 : BitVec 64) ≠ 1024
    decide

/-- Block size 1 as in the tests of the library: the later of two calls for one field counts. -/
example : ([.blockSize 1, .lweDimension 500, .blockSize 2] : List (Change 32)).foldl ParamsLit.change exLit =
    { exLit with lweDimension := 500, blockSize := 2 } := rfl

/-- A gadget with base `2^10` and three levels in 32 bits: `BaseQ` of the last level is 4. -/
example : (⟨1024, 10, 3⟩ : GadgetParams 32).Valid ∧ (⟨1024, 10, 3⟩ : GadgetParams 32).baseQInt 2 = some 4 :=
  ⟨⟨by norm_num, by decide, by norm_num, by norm_num⟩, by decide⟩

end Tfhe
