import Verif.Model.Sink

/-!
# Composition of writes

Both `WritesTo` and `WritesToUncounted` are preserved by the combinators of `Model/Sink.lean`; the
former is not preserved by `seqForget`.
-/
namespace Tfhe.Ser

variable {σ : Type} {v : ℕ}

theorem accepted_append (l m : List Call) : accepted (l ++ m) = accepted l ++ accepted m :=
  List.flatMap_append

theorem Answers.append {S : Sink σ} {a b c : σ} {l m : List Call} (h : Answers S a l b)
    (h' : Answers S b m c) : Answers S a (l ++ m) c := by
  induction h with
  | nil => exact h'
  | cons e _ ih => exact .cons e (ih h')

theorem Delivers.clean {S : Sink σ} {st : σ} {b : Bytes} {o : Out σ} (h : Delivers S st b o)
    (he : o.err = false) : ∀ c ∈ o.log, c.failed = false := by
  intro c hc
  cases hf : c.failed with
  | false => rfl
  | true => exact absurd (h.err.2 ⟨c, hc, hf⟩) (by simp [he])

theorem delivers_early {S : Sink σ} {st : σ} {a b : Bytes} {o : Out σ} (h : Delivers S st a o)
    (he : o.err = true) : Delivers S st (a ++ b) o :=
  ⟨h.run, h.pre.trans (List.prefix_append _ _), h.err, h.stop, by simp [he]⟩

theorem delivers_append {S : Sink σ} {st : σ} {a b : Bytes} {o o' : Out σ} {n : ℕ}
    (h : Delivers S st a o) (he : o.err = false) (h' : Delivers S o.st b o')
    (hn : o'.err = false → n = o.n + o'.n) :
    Delivers S st (a ++ b) ⟨o'.st, o.log ++ o'.log, n, o'.err⟩ := by
  have hc := h.clean he
  refine ⟨h.run.append h'.run, ?_, ?_, ?_, ?_⟩
  · rw [accepted_append, (h.whole he).1]
    exact (List.prefix_append_right_inj _).2 h'.pre
  · rw [h'.err]
    constructor
    · rintro ⟨c, hm, hf⟩; exact ⟨c, List.mem_append_right _ hm, hf⟩
    · rintro ⟨c, hm, hf⟩
      rcases List.mem_append.1 hm with hm | hm
      · rw [hc c hm] at hf; cases hf
      · exact ⟨c, hm, hf⟩
  · intro c hm
    by_cases hl : o'.log = []
    · simp only [hl, List.append_nil] at hm
      exact hc c (List.mem_of_mem_dropLast hm)
    · rw [List.dropLast_append_of_ne_nil hl] at hm
      rcases List.mem_append.1 hm with hm | hm
      · exact hc c hm
      · exact h'.stop c hm
  · intro he'
    refine ⟨by rw [accepted_append, (h.whole he).1, (h'.whole he').1], ?_⟩
    rw [hn he', (h.whole he).2, (h'.whole he').2, List.length_append]

theorem WritesTo.uncounted {p : Prog σ} {b : Bytes} (h : WritesTo p b) : WritesToUncounted p b := by
  intro S hS st
  obtain ⟨o, h1, h2, _⟩ := h S hS st
  exact ⟨o, h1, h2⟩

theorem writesTo_skip : WritesTo (.skip : Prog σ) [] := by
  intro S _ st
  refine ⟨_, rfl, ⟨.nil _, ?_, ?_, ?_, ?_⟩, ?_⟩ <;> simp [accepted, CountsBytes]

theorem writesTo_put (b : Bytes) : WritesTo (.put b : Prog σ) b := by
  intro S hS st
  obtain ⟨h1, h2⟩ := hS st b
  refine ⟨_, rfl, ⟨.cons rfl (.nil _), ?_, ?_, ?_, ?_⟩, ?_⟩
  · simpa [accepted] using List.take_prefix _ b
  · simp
  · simp
  · intro he
    have : (S.write st b).2.1 = b.length := by
      by_contra hne
      have := h2 (lt_of_le_of_ne h1 hne)
      simp only at he
      rw [he] at this; cases this
    simp [accepted, this]
  · simp [CountsBytes, accepted, h1]

theorem WritesTo.seq {p q : Prog σ} {a b : Bytes} (hp : WritesTo p a) (hq : WritesTo q b) :
    WritesTo (p.seq q) (a ++ b) := by
  intro S hS st
  obtain ⟨o, h1, h2, h3⟩ := hp S hS st
  cases he : o.err with
  | true => exact ⟨o, by simp [Prog.seq, h1, he], delivers_early h2 he, h3⟩
  | false =>
    obtain ⟨o', h1', h2', h3'⟩ := hq S hS o.st
    refine ⟨_, by simp [Prog.seq, h1, he, h1'], delivers_append h2 he h2' fun _ => rfl, ?_⟩
    simp only [CountsBytes] at h3 h3' ⊢
    rw [accepted_append, List.length_append, h3, h3']

theorem WritesToUncounted.seq {p q : Prog σ} {a b : Bytes} (hp : WritesToUncounted p a)
    (hq : WritesToUncounted q b) : WritesToUncounted (p.seq q) (a ++ b) := by
  intro S hS st
  obtain ⟨o, h1, h2⟩ := hp S hS st
  cases he : o.err with
  | true => exact ⟨o, by simp [Prog.seq, h1, he], delivers_early h2 he⟩
  | false =>
    obtain ⟨o', h1', h2'⟩ := hq S hS o.st
    exact ⟨_, by simp [Prog.seq, h1, he, h1'], delivers_append h2 he h2' fun _ => rfl⟩

theorem WritesToUncounted.seqForget {p q : Prog σ} {a b : Bytes} (hp : WritesToUncounted p a)
    (hq : WritesToUncounted q b) : WritesToUncounted (p.seqForget q) (a ++ b) := by
  intro S hS st
  obtain ⟨o, h1, h2⟩ := hp S hS st
  cases he : o.err with
  | true => exact ⟨o, by simp [Prog.seqForget, h1, he], delivers_early h2 he⟩
  | false =>
    obtain ⟨o', h1', h2'⟩ := hq S hS o.st
    exact ⟨_, by simp [Prog.seqForget, h1, he, h1']; rfl,
      delivers_append h2 he h2' fun e => by simp [e]⟩

theorem WritesTo.eval {α : Type} {x : Option α} {a : α} {p : α → Prog σ} {b : Bytes}
    (hx : x = some a) (h : WritesTo (p a) b) : WritesTo (.eval x p) b := by
  subst hx; exact h

theorem WritesToUncounted.eval {α : Type} {x : Option α} {a : α} {p : α → Prog σ} {b : Bytes}
    (hx : x = some a) (h : WritesToUncounted (p a) b) : WritesToUncounted (.eval x p) b := by
  subst hx; exact h

theorem check_run {S : Sink σ} {st : σ} {p : Prog σ} {b : Bytes} {size : Option ℕ} {sz : ℕ}
    (hs : size = some sz) (hl : sz ≤ b.length) {o : Out σ} (h1 : p S st = some o)
    (h2 : Delivers S st b o) : p.check size S st = some o := by
  cases he : o.err with
  | true => simp [Prog.check, h1, he]
  | false =>
    have hn := (h2.whole he).2
    have : decide (o.n < sz) = false := by simp; omega
    simp only [Prog.check, h1, he, hs, Option.bind_some, Option.map_some, this]
    rw [← he]; simp

theorem WritesTo.check {p : Prog σ} {b : Bytes} {size : Option ℕ} {sz : ℕ} (h : WritesTo p b)
    (hs : size = some sz) (hl : sz ≤ b.length) : WritesTo (p.check size) b := by
  intro S hS st
  obtain ⟨o, h1, h2, h3⟩ := h S hS st
  exact ⟨o, check_run hs hl h1 h2, h2, h3⟩

theorem WritesToUncounted.check {p : Prog σ} {b : Bytes} {size : Option ℕ} {sz : ℕ}
    (h : WritesToUncounted p b) (hs : size = some sz) (hl : sz ≤ b.length) :
    WritesToUncounted (p.check size) b := by
  intro S hS st
  obtain ⟨o, h1, h2⟩ := h S hS st
  exact ⟨o, check_run hs hl h1 h2, h2⟩

theorem writesTo_vec (x : List (BitVec v)) : WritesTo (vecW x : Prog σ) (vecWriteTo x) := by
  induction x with
  | nil => exact writesTo_skip
  | cons a l ih => exact (writesTo_put _).seq ih

theorem writesTo_vecs (l : List (List (BitVec v))) (buf : Bytes) {b : Bytes}
    (h : writeVecs l buf = some b) : WritesTo (vecsW l buf : Prog σ) b := by
  induction l generalizing buf b with
  | nil => simp only [writeVecs, Option.some.injEq] at h; subst h; exact writesTo_skip
  | cons x l ih =>
    simp only [writeVecs, Option.bind_eq_some_iff, Option.map_eq_some_iff] at h
    obtain ⟨buf', h1, c, h2, rfl⟩ := h
    exact .eval h1 ((writesTo_put _).seq (ih _ h2))

/-! ## The result of the methods when everything is taken -/

theorem finish_some {h c : Option Bytes} {size : Option ℕ} {b : Bytes}
    (e : finish h c size = some ⟨b, false⟩) :
    ∃ x y sz, h = some x ∧ c = some y ∧ size = some sz ∧ b = x ++ y ∧ sz ≤ b.length := by
  simp only [finish, Option.bind_eq_some_iff, Option.some.injEq, Wr.mk.injEq,
    decide_eq_false_iff_not, not_lt] at e
  obtain ⟨x, hx, y, hy, sz, hs, rfl, hl⟩ := e
  exact ⟨x, y, sz, hx, hy, hs, rfl, hl⟩

theorem andThen_some {a c : Option Wr} {b : Bytes} (e : Wr.andThen a c = some ⟨b, false⟩) :
    ∃ x y, a = some ⟨x, false⟩ ∧ c = some ⟨y, false⟩ ∧ b = x ++ y := by
  simp only [Wr.andThen, Option.bind_eq_some_iff] at e
  obtain ⟨⟨x, s⟩, rfl, h⟩ := e
  cases s with
  | true => simp at h
  | false =>
    simp only [Bool.false_eq_true, if_false, Option.map_eq_some_iff, Wr.mk.injEq] at h
    obtain ⟨⟨y, t⟩, rfl, rfl, rfl⟩ := h
    exact ⟨x, y, rfl, rfl, rfl⟩

theorem wrCheck_some {a : Option Wr} {size : Option ℕ} {b : Bytes}
    (e : Wr.check a size = some ⟨b, false⟩) :
    ∃ sz, a = some ⟨b, false⟩ ∧ size = some sz ∧ sz ≤ b.length := by
  simp only [Wr.check, Option.bind_eq_some_iff] at e
  obtain ⟨⟨x, s⟩, rfl, h⟩ := e
  cases s with
  | true => simp at h
  | false =>
    simp only [Bool.false_eq_true, if_false, Option.bind_eq_some_iff, Option.some.injEq,
      Wr.mk.injEq, decide_eq_false_iff_not, not_lt] at h
    obtain ⟨sz, hs, rfl, hl⟩ := h
    exact ⟨sz, rfl, hs, hl⟩

theorem writesTo_finish {p q : Prog σ} {h c : Option Bytes} {size : Option ℕ} {b : Bytes}
    (e : finish h c size = some ⟨b, false⟩) (hp : ∀ x, h = some x → WritesTo p x)
    (hq : ∀ x, c = some x → WritesTo q x) : WritesTo (finishW p q size) b := by
  obtain ⟨x, y, sz, hx, hy, hs, rfl, hl⟩ := finish_some e
  exact ((hp x hx).seq (hq y hy)).check hs hl

theorem writesToUncounted_finish {p q : Prog σ} {h c : Option Bytes} {size : Option ℕ} {b : Bytes}
    (e : finish h c size = some ⟨b, false⟩) (hp : ∀ x, h = some x → WritesToUncounted p x)
    (hq : ∀ x, c = some x → WritesToUncounted q x) :
    WritesToUncounted (finishW p q size) b := by
  obtain ⟨x, y, sz, hx, hy, hs, rfl, hl⟩ := finish_some e
  exact ((hp x hx).seq (hq y hy)).check hs hl

/-! ## Readers -/

theorem readsCounted_readFull (k : ℕ) : ReadsCounted (readFull k) := by
  intro s
  simp only [readFull]
  split_ifs with h
  · exact ⟨h, rfl⟩
  · rfl

theorem readsCounted_pure {α : Type} (a : α) : ReadsCounted (Reader.pure a) := fun s => by
  simp [Reader.pure]

theorem readsCounted_lift {α : Type} (a : Option α) : ReadsCounted (Reader.lift a) := fun s => by
  cases a <;> simp [Reader.lift]

theorem ReadsCounted.bind {α β : Type} {r : Reader α} {f : α → Reader β} (hr : ReadsCounted r)
    (hf : ∀ a, ReadsCounted (f a)) : ReadsCounted (r.bind f) := by
  intro s
  have h := hr s
  simp only [Reader.bind]
  cases hrs : r s with
  | err n => rw [hrs] at h; exact h
  | panic => trivial
  | ok n a rest =>
    rw [hrs] at h
    obtain ⟨h1, rfl⟩ := h
    have h' := hf a (s.drop n)
    simp only
    cases hfs : f a (s.drop n) with
    | err m => rw [hfs] at h'; simp only [List.length_drop] at h' ⊢; omega
    | panic => trivial
    | ok m b rest' =>
      rw [hfs] at h'
      obtain ⟨h2, rfl⟩ := h'
      simp only [List.length_drop, List.drop_drop] at h2 ⊢
      exact ⟨by omega, trivial⟩

theorem ReadsCounted.map {α β : Type} {r : Reader α} (f : α → β) (hr : ReadsCounted r) :
    ReadsCounted (r.map f) := hr.bind fun _ => readsCounted_pure _

theorem readsCounted_readEach {α β : Type} {f : α → Reader β} (hf : ∀ a, ReadsCounted (f a)) :
    ∀ l, ReadsCounted (readEach f l)
  | [] => readsCounted_pure _
  | a :: l => (hf a).bind fun _ => (readsCounted_readEach hf l).map _

theorem readsCounted_readU64 : ReadsCounted readU64 := (readsCounted_readFull 8).map _

theorem readsCounted_vec (x : List (BitVec v)) : ReadsCounted (vecReadFrom x) :=
  readsCounted_readEach (fun _ => (readsCounted_readFull _).map _) x

theorem readsCounted_vecBuf (len : ℕ) (x : List (BitVec v)) :
    ReadsCounted (vecReadFromBuf len x) :=
  (readsCounted_readFull len).bind fun _ => readsCounted_lift _

end Tfhe.Ser
