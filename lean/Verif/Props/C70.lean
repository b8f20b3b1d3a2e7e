import Verif.Lemma.Sink
import Verif.Props.C24

/-!
# C70: byte counts and errors on writers that fail and streams that end early

For every serializable type and every writer that keeps the contract of `io.Writer`: what reaches the
writer is the beginning of the encoding, an error is returned exactly if the writer returned one,
nothing is written after that, and the returned count is the number of bytes that reached the writer.
The count is wrong in `FFTGLWESecretKey`, `FFTGLWECiphertext`, `FFTGLevCiphertext` and
`mktfhe.EvaluationKey` (`…_count_false`), where the rest holds (`…_partial`).

For every `ReadFrom` and every byte string on which it does not panic: the returned count is the
number of bytes taken from the stream.  It is wrong in `FFTGLWESecretKey`, `FFTGLWECiphertext` and
`LWESecretKey`.

The hypothesis `…WriteTo x = some ⟨b, false⟩` says that `b` is the encoding of `x`; C24 has it for
all well-formed objects.
-/
namespace Tfhe.Ser

variable {w v mem : ℕ} {σ : Type} {b : Bytes}

/-! ## Writing -/

theorem C70_gadgetParameters {g : GadgetParams w} (h : gadgetWriteTo g = some ⟨b, false⟩) :
    WritesTo (gadgetW g : Prog σ) b :=
  writesTo_finish h (by rintro _ ⟨⟩; exact writesTo_put _) (by rintro _ ⟨⟩; exact writesTo_put _)

theorem C70_lweSecretKey {x : List (BitVec v)} (h : lweSKWriteTo x = some ⟨b, false⟩) :
    WritesTo (lweSKW x : Prog σ) b :=
  writesTo_finish h (by rintro _ ⟨⟩; exact writesTo_put _) (by rintro _ ⟨⟩; exact writesTo_vec _)

theorem C70_lwePlaintext {x : BitVec v} (h : lwePTWriteTo x = some ⟨b, false⟩) :
    WritesTo (lwePTW x : Prog σ) b := by
  obtain ⟨_, _, _, hx, hy, hs, rfl, hl⟩ := finish_some h
  cases hx; cases hy
  exact (writesTo_vec _).check hs hl

theorem C70_lweCiphertext {x : List (BitVec v)} (h : lweCTWriteTo x = some ⟨b, false⟩) :
    WritesTo (lweCTW x : Prog σ) b :=
  writesTo_finish h (by rintro _ ⟨⟩; exact writesTo_put _) (by rintro _ ⟨⟩; exact writesTo_vec _)

theorem C70_glwePlaintext {x : List (BitVec v)} (h : glwePTWriteTo x = some ⟨b, false⟩) :
    WritesTo (glwePTW x : Prog σ) b :=
  writesTo_finish h (by rintro _ ⟨⟩; exact writesTo_put _) (by rintro _ ⟨⟩; exact writesTo_vec _)

/-- `LWEPublicKey` and `GLWEPublicKey`. -/
theorem C70_publicKeys {x : List (List (List (BitVec v)))} (h : pkWriteTo x = some ⟨b, false⟩) :
    WritesTo (pkW x : Prog σ) b := by
  refine writesTo_finish h (fun a ha => ?_) (fun a ha => ?_)
  · obtain ⟨N, hN, rfl⟩ := Option.map_eq_some_iff.1 ha
    exact (writesTo_put _).seq (.eval hN (writesTo_put _))
  · obtain ⟨N, hN, ha⟩ := Option.bind_eq_some_iff.1 ha
    exact .eval hN (writesTo_vecs _ _ ha)

theorem C70_lev {x : Lev w} (h : levWriteTo x = some ⟨b, false⟩) :
    WritesTo (levW x : Prog σ) b := by
  refine writesTo_finish h (fun a ha => ?_) (fun a ha => ?_)
  · obtain ⟨N, hN, rfl⟩ := Option.map_eq_some_iff.1 ha
    rw [List.append_assoc]
    exact (writesTo_put _).seq ((writesTo_put _).seq (.eval hN (writesTo_put _)))
  · obtain ⟨N, hN, ha⟩ := Option.bind_eq_some_iff.1 ha
    exact .eval hN (writesTo_vecs _ _ ha)

theorem C70_gsw {x : GSW w} (h : gswWriteTo x = some ⟨b, false⟩) :
    WritesTo (gswW x : Prog σ) b := by
  refine writesTo_finish h (fun a ha => ?_) (fun a ha => writesTo_vecs _ _ ha)
  obtain ⟨row, hr, rfl⟩ := Option.map_eq_some_iff.1 ha
  rw [List.append_assoc]
  exact (writesTo_put _).seq (.eval hr ((writesTo_put _).seq (writesTo_put _)))

theorem writesTo_polysValue {x : List (List (BitVec v))} (h : polysValue x = some b) :
    WritesTo (polysValueW x : Prog σ) b := by
  obtain ⟨N, hN, ha⟩ := Option.bind_eq_some_iff.1 h
  exact .eval hN (writesTo_vecs _ _ ha)

theorem C70_glweSecretKey {x : List (List (BitVec v))} (h : glweSKWriteTo x = some ⟨b, false⟩) :
    WritesTo (glweSKW x : Prog σ) b := by
  refine writesTo_finish h (fun a ha => ?_) (fun a ha => writesTo_polysValue ha)
  obtain ⟨N, hN, rfl⟩ := Option.map_eq_some_iff.1 ha
  exact (writesTo_put _).seq (.eval hN (writesTo_put _))

/-- Missing: the count on an error, which is wrong (`C70_fftGLWESecretKey_count_false`). -/
theorem C70_fftGLWESecretKey_partial {x : List (List (BitVec 64))}
    (h : glweSKWriteTo x = some ⟨b, false⟩) : WritesToUncounted (fftGLWESKW x : Prog σ) b := by
  refine writesToUncounted_finish h (fun a ha => ?_) (fun a ha => (writesTo_polysValue ha).uncounted)
  obtain ⟨N, hN, rfl⟩ := Option.map_eq_some_iff.1 ha
  exact (writesTo_put _).uncounted.seqForget (.eval hN (writesTo_put _).uncounted)

theorem C70_glweCiphertext {x : List (List (BitVec v))} (h : glweCTWriteTo x = some ⟨b, false⟩) :
    WritesTo (glweCTW x : Prog σ) b := by
  refine writesTo_finish h (fun a ha => ?_) (fun a ha => writesTo_polysValue ha)
  obtain ⟨N, hN, rfl⟩ := Option.map_eq_some_iff.1 ha
  exact (writesTo_put _).seq (.eval hN (writesTo_put _))

/-- Missing: the count on an error, which is wrong (`C70_fftGLWECiphertext_count_false`). -/
theorem C70_fftGLWECiphertext_partial {x : List (List (BitVec 64))}
    (h : glweCTWriteTo x = some ⟨b, false⟩) : WritesToUncounted (fftGLWECTW x : Prog σ) b := by
  refine writesToUncounted_finish h (fun a ha => ?_) (fun a ha => (writesTo_polysValue ha).uncounted)
  obtain ⟨N, hN, rfl⟩ := Option.map_eq_some_iff.1 ha
  exact (writesTo_put _).uncounted.seqForget (.eval hN (writesTo_put _).uncounted)

theorem writesTo_glevValue {x : GLev w v} (h : glevValue x = some b) :
    WritesTo (glevValueW x : Prog σ) b := by
  obtain ⟨N, hN, ha⟩ := Option.bind_eq_some_iff.1 h
  exact .eval hN (writesTo_vecs _ _ ha)

theorem C70_glev {x : GLev w v} (h : glevWriteTo x = some ⟨b, false⟩) :
    WritesTo (glevW x : Prog σ) b := by
  refine writesTo_finish h (fun a ha => ?_) (fun a ha => writesTo_glevValue ha)
  obtain ⟨ct, hc, ha⟩ := Option.bind_eq_some_iff.1 ha
  obtain ⟨N, hN, rfl⟩ := Option.map_eq_some_iff.1 ha
  simp only [List.append_assoc]
  exact (writesTo_put _).seq ((writesTo_put _).seq
    (.eval hc ((writesTo_put _).seq (.eval hN (writesTo_put _)))))

/-- Missing: the count on an error, which is wrong (`C70_fftGLev_count_false`). -/
theorem C70_fftGLev_partial {x : GLev w 64} (h : glevWriteTo x = some ⟨b, false⟩) :
    WritesToUncounted (fftGLevW x : Prog σ) b := by
  refine writesToUncounted_finish h (fun a ha => ?_) (fun a ha => (writesTo_glevValue ha).uncounted)
  obtain ⟨ct, hc, ha⟩ := Option.bind_eq_some_iff.1 ha
  obtain ⟨N, hN, rfl⟩ := Option.map_eq_some_iff.1 ha
  simp only [List.append_assoc]
  exact (writesTo_put _).uncounted.seqForget ((writesTo_put _).uncounted.seqForget
    (.eval hc ((writesTo_put _).uncounted.seqForget (.eval hN (writesTo_put _).uncounted))))

theorem writesTo_ggswValue {x : GGSW w v} (h : ggswValue x = some b) :
    WritesTo (ggswValueW x : Prog σ) b := by
  obtain ⟨N, hN, ha⟩ := Option.bind_eq_some_iff.1 h
  exact .eval hN (writesTo_vecs _ _ ha)

/-- `GGSWCiphertext` at `v = w`, `FFTGGSWCiphertext` at `v = 64`. -/
theorem C70_ggsw {x : GGSW w v} (h : ggswWriteTo x = some ⟨b, false⟩) :
    WritesTo (ggswW x : Prog σ) b := by
  refine writesTo_finish h (fun a ha => ?_) (fun a ha => writesTo_ggswValue ha)
  obtain ⟨row, hr, ha⟩ := Option.bind_eq_some_iff.1 ha
  obtain ⟨N, hN, rfl⟩ := Option.map_eq_some_iff.1 ha
  simp only [List.append_assoc]
  exact (writesTo_put _).seq (.eval hr ((writesTo_put _).seq ((writesTo_put _).seq
    (.eval hN (writesTo_put _)))))

/-- `UniEncryption` at `v = w`, `FFTUniEncryption` at `v = 64`. -/
theorem C70_uniEncryption {x : GGSW w v} (h : uniWriteTo x = some ⟨b, false⟩) :
    WritesTo (uniW x : Prog σ) b := by
  refine writesTo_finish h (fun a ha => ?_) (fun a ha => writesTo_ggswValue ha)
  obtain ⟨row, hr, ha⟩ := Option.bind_eq_some_iff.1 ha
  obtain ⟨N, hN, rfl⟩ := Option.map_eq_some_iff.1 ha
  simp only [List.append_assoc]
  exact (writesTo_put _).seq (.eval hr ((writesTo_put _).seq (.eval hN (writesTo_put _))))

theorem C70_lweKeySwitchKey {x : GSW w} (h : lweKSKWriteTo x = some ⟨b, false⟩) :
    WritesTo (lweKSKW x : Prog σ) b := by
  refine writesTo_finish h (fun a ha => ?_) (fun a ha => ?_)
  · obtain ⟨row, hr, ha⟩ := Option.bind_eq_some_iff.1 ha
    obtain ⟨n, hn, rfl⟩ := Option.map_eq_some_iff.1 ha
    simp only [List.append_assoc]
    exact (writesTo_put _).seq ((writesTo_put _).seq ((writesTo_put _).seq
      (.eval (a := n) (by rw [hr]; exact hn) (writesTo_put _))))
  · obtain ⟨row, hr, ha⟩ := Option.bind_eq_some_iff.1 ha
    obtain ⟨n, hn, ha⟩ := Option.bind_eq_some_iff.1 ha
    exact .eval (a := n) (by rw [hr]; exact hn) (writesTo_vecs _ _ ha)

theorem C70_glweKeySwitchKey {x : GGSW w 64} (h : glweKSKWriteTo x = some ⟨b, false⟩) :
    WritesTo (glweKSKW x : Prog σ) b := by
  refine writesTo_finish h (fun a ha => ?_) (fun a ha => writesTo_ggswValue ha)
  obtain ⟨row, hr, ha⟩ := Option.bind_eq_some_iff.1 ha
  obtain ⟨ct, hc, ha⟩ := Option.bind_eq_some_iff.1 ha
  obtain ⟨N, hN, rfl⟩ := Option.map_eq_some_iff.1 ha
  simp only [List.append_assoc]
  exact (writesTo_put _).seq ((writesTo_put _).seq ((writesTo_put _).seq
    (.eval (a := ct) (by rw [hr]; exact hc) ((writesTo_put _).seq (.eval hN (writesTo_put _))))))

theorem C70_blindRotateKey {x : BRK w} (h : brkWriteTo x = some ⟨b, false⟩) :
    WritesTo (brkW x : Prog σ) b := by
  refine writesTo_finish h (fun a ha => ?_) (fun a ha => ?_)
  · obtain ⟨gg, hg, ha⟩ := Option.bind_eq_some_iff.1 ha
    obtain ⟨N, hN, rfl⟩ := Option.map_eq_some_iff.1 ha
    simp only [List.append_assoc]
    exact (writesTo_put _).seq ((writesTo_put _).seq ((writesTo_put _).seq
      (.eval hg ((writesTo_put _).seq (.eval hN (writesTo_put _))))))
  · obtain ⟨N, hN, ha⟩ := Option.bind_eq_some_iff.1 ha
    exact .eval hN (writesTo_vecs _ _ ha)

theorem C70_evaluationKey {x : EvalKey w} (h : evkWriteTo x = some ⟨b, false⟩) :
    WritesTo (evkW x : Prog σ) b := by
  obtain ⟨sz, k0, hs, hl⟩ := wrCheck_some h
  clear h
  refine WritesTo.check ?_ hs hl
  obtain ⟨_, _, h1, k1, rfl⟩ := andThen_some k0
  obtain ⟨_, _, h2, h3, rfl⟩ := andThen_some k1
  cases h1
  refine (writesTo_put _).seq ((C70_blindRotateKey h2).seq ?_)
  split_ifs at h3 ⊢
  · exact C70_gadgetParameters h3
  all_goals first | exact C70_lweKeySwitchKey h3 | exact C70_gadgetParameters h3

theorem C70_secretKey {x : SecKey w} (h : skWriteTo x = some ⟨b, false⟩) :
    WritesTo (skW x : Prog σ) b := by
  obtain ⟨_, _, _, hx, hy, hs, rfl, hl⟩ := finish_some h
  refine WritesTo.check (WritesTo.seq ?_ ?_) hs hl
  · simp only [skHeader] at hx
    split_ifs at hx with h0
    cases hx
    rw [List.append_assoc]
    exact (writesTo_put _).seq ((writesTo_put _).seq
      (.eval (a := x.polyRank) (by simp [h0]) (writesTo_put _)))
  · obtain ⟨_, hp, rfl⟩ := Option.map_eq_some_iff.1 hy
    exact (writesTo_vec _).seq (writesTo_polysValue hp)

theorem C70_publicKey {x : PubKey w} (h : pubKeyWriteTo x = some ⟨b, false⟩) :
    WritesTo (pubKeyW x : Prog σ) b := by
  obtain ⟨sz, k0, hs, hl⟩ := wrCheck_some h
  clear h
  refine WritesTo.check ?_ hs hl
  obtain ⟨_, _, h1, h2, rfl⟩ := andThen_some k0
  exact (C70_publicKeys h1).seq (C70_publicKeys h2)

/-- Missing: the count on an error, which is wrong (`C70_mkEvaluationKey_count_false`). -/
theorem C70_mkEvaluationKey_partial {x : MKEvalKey w} (h : mkEvkWriteTo x = some ⟨b, false⟩) :
    WritesToUncounted (mkEvkW x : Prog σ) b := by
  obtain ⟨sz, k0, hs, hl⟩ := wrCheck_some h
  clear h
  refine WritesToUncounted.check ?_ hs hl
  obtain ⟨_, _, h1, k1, rfl⟩ := andThen_some k0
  obtain ⟨_, _, h2, h3, rfl⟩ := andThen_some k1
  exact (C70_evaluationKey h1).uncounted.seq
    ((C70_fftGLev_partial h2).seq (C70_uniEncryption h3).uncounted)

theorem C70_parameters {p : Params w} (h : paramsWriteTo p = some ⟨b, false⟩) :
    WritesTo (paramsW p : Prog σ) b := by
  obtain ⟨sz, k0, hs, hl⟩ := wrCheck_some h
  clear h
  refine WritesTo.check ?_ hs hl
  obtain ⟨_, _, h1, k1, rfl⟩ := andThen_some k0
  obtain ⟨_, _, h2, k2, rfl⟩ := andThen_some k1
  obtain ⟨_, _, h3, h4, rfl⟩ := andThen_some k2
  cases h1; cases h4
  simp only [List.append_assoc]
  exact (writesTo_put _).seq ((writesTo_put _).seq ((writesTo_put _).seq ((writesTo_put _).seq
    ((writesTo_put _).seq ((writesTo_put _).seq ((writesTo_put _).seq ((writesTo_put _).seq
    ((C70_gadgetParameters h2).seq ((C70_gadgetParameters h3).seq (writesTo_put _))))))))))

theorem C70_mkParameters {p : MKParams w} (h : mkParamsWriteTo p = some ⟨b, false⟩) :
    WritesTo (mkParamsW p : Prog σ) b := by
  obtain ⟨sz, k0, hs, hl⟩ := wrCheck_some h
  clear h
  refine WritesTo.check ?_ hs hl
  obtain ⟨_, _, h1, k1, rfl⟩ := andThen_some k0
  obtain ⟨_, _, h2, k2, rfl⟩ := andThen_some k1
  obtain ⟨_, _, h3, h4, rfl⟩ := andThen_some k2
  cases h2
  exact (C70_parameters h1).seq ((writesTo_put _).seq
    ((C70_gadgetParameters h3).seq (C70_gadgetParameters h4)))

/-! ## Where the count is wrong

On a disk with room for 12 bytes the first header field is written and half of the second; 12 bytes
are on the disk, and the method returns 4. -/

theorem diskSink_contract : diskSink.Contract := by
  intro r c
  simp only [diskSink]
  split_ifs with h
  · simp
  · simpa using by omega

theorem putLen_len (n : ℕ) : (putLen n).length = 8 := rfl

theorem putLenPred_len (n : ℕ) : (putLenPred n).length = 8 := rfl

theorem putU64_len (n : BitVec 64) : (putU64 n).length = 8 := rfl

theorem C70_fftGLWESecretKey_count_false {x : List (List (BitVec 64))}
    (h : glweSKWriteTo x = some ⟨b, false⟩) :
    ∃ o, fftGLWESKW x diskSink 12 = some o ∧ o.err = true ∧ o.n = 4 ∧
      (accepted o.log).length = 12 := by
  obtain ⟨_, _, _, hx, _⟩ := finish_some h
  obtain ⟨N, hN, -⟩ := Option.map_eq_some_iff.1 hx
  refine ⟨⟨0, [⟨putLen x.length, 8, false⟩, ⟨putLen N, 4, true⟩], 4, true⟩, ?_, rfl, rfl, ?_⟩
  · simp [fftGLWESKW, finishW, Prog.check, Prog.seq, fftGLWESKHeaderW, Prog.seqForget, Prog.put,
      Prog.eval, hN, diskSink, putLen_len]
  · simp [accepted, putLen_len]

theorem C70_fftGLWECiphertext_count_false {x : List (List (BitVec 64))}
    (h : glweCTWriteTo x = some ⟨b, false⟩) :
    ∃ o, fftGLWECTW x diskSink 12 = some o ∧ o.err = true ∧ o.n = 4 ∧
      (accepted o.log).length = 12 := by
  obtain ⟨_, _, _, hx, _⟩ := finish_some h
  obtain ⟨N, hN, -⟩ := Option.map_eq_some_iff.1 hx
  refine ⟨⟨0, [⟨putLenPred x.length, 8, false⟩, ⟨putLen N, 4, true⟩], 4, true⟩, ?_, rfl, rfl, ?_⟩
  · simp [fftGLWECTW, finishW, Prog.check, Prog.seq, fftGLWECTHeaderW, Prog.seqForget, Prog.put,
      Prog.eval, hN, diskSink, putLen_len, putLenPred_len]
  · simp [accepted, putLen_len, putLenPred_len]

theorem fftGLevW_disk (x : GLev w 64) :
    fftGLevW x diskSink 12 = some ⟨0, [⟨putU64 (x.gadget.base.setWidth 64), 8, false⟩,
      ⟨putLen x.value.length, 4, true⟩], 4, true⟩ := by
  simp [fftGLevW, finishW, Prog.check, Prog.seq, fftGLevHeaderW, Prog.seqForget, Prog.put,
    diskSink, putLen_len, putU64_len]

theorem C70_fftGLev_count_false (x : GLev w 64) :
    ∃ o, fftGLevW x diskSink 12 = some o ∧ o.err = true ∧ o.n = 4 ∧
      (accepted o.log).length = 12 :=
  ⟨_, fftGLevW_disk x, rfl, rfl, by simp [accepted, putLen_len, putU64_len]⟩

/-- What is on the disk and the room left add up. -/
theorem answers_disk {r r' : ℕ} {log : List Call} (h : Answers diskSink r log r') :
    (accepted log).length + r' = r ∧ ((∃ c ∈ log, c.failed = true) → r' = 0) := by
  induction h with
  | nil => simp [accepted]
  | @cons st st' st'' c log e _ ih =>
    obtain ⟨ih1, ih2⟩ := ih
    simp only [diskSink] at e
    have hacc : (accepted (c :: log)).length = min c.n c.arg.length + (accepted log).length := by
      simp [accepted]
    split_ifs at e with hl
    · simp only [Prod.mk.injEq] at e
      obtain ⟨e1, e2, e3⟩ := e
      refine ⟨by rw [hacc, ← e2]; simp; omega, ?_⟩
      rintro ⟨d, hd, hf⟩
      rcases List.mem_cons.1 hd with rfl | hd
      · rw [← e3] at hf; cases hf
      · exact ih2 ⟨d, hd, hf⟩
    · simp only [Prod.mk.injEq] at e
      obtain ⟨e1, e2, e3⟩ := e
      exact ⟨by rw [hacc, ← e2]; omega, fun _ => by omega⟩

/-- When the disk fills up 12 bytes into the `CRSPublicKey` of a multi-key evaluation key, the count is
8 less than the number of bytes on the disk. -/
theorem C70_mkEvaluationKey_count_false {x : MKEvalKey w} (h : mkEvkWriteTo x = some ⟨b, false⟩) :
    ∃ r o, mkEvkW x diskSink r = some o ∧ o.err = true ∧ o.n + 8 = (accepted o.log).length := by
  obtain ⟨sz, k0, -, -⟩ := wrCheck_some h
  obtain ⟨c, _, h1, -, -⟩ := andThen_some k0
  obtain ⟨o, e1, hd, hc⟩ := C70_evaluationKey (σ := ℕ) h1 diskSink diskSink_contract (c.length + 12)
  obtain ⟨a1, a2⟩ := answers_disk hd.run
  have hle := hd.pre.length_le
  have he : o.err = false := by
    cases he : o.err with
    | false => rfl
    | true => have := a2 (hd.err.1 he); omega
  obtain ⟨w1, w2⟩ := hd.whole he
  have hst : o.st = 12 := by rw [w1] at a1; omega
  refine ⟨c.length + 12, ⟨0, o.log ++ [⟨putU64 (x.crs.gadget.base.setWidth 64), 8, false⟩,
      ⟨putLen x.crs.value.length, 4, true⟩], o.n + 4, true⟩, ?_, rfl, ?_⟩
  · have hf := fftGLevW_disk x.crs
    simp only [mkEvkW, Prog.check, Prog.seq, e1, Option.bind_some, he, hst, hf]
    simp
  · rw [accepted_append, List.length_append, w1, w2]
    simp [accepted, putLen_len, putU64_len]

/-! ## Reading -/

theorem readsCounted_gadget : ReadsCounted (readGadget (w := w)) :=
  readsCounted_readU64.bind fun _ => readsCounted_readU64.bind fun _ => readsCounted_lift _

theorem readsCounted_polys (x : List (List (BitVec v))) : ReadsCounted (polysValueRead x) :=
  (readsCounted_lift _).bind fun _ => readsCounted_readEach (fun _ => readsCounted_vecBuf _ _) _

theorem readsCounted_levs (len : ℕ) (x : GSW w) : ReadsCounted (readLevs len x) :=
  (readsCounted_readEach (fun _ =>
    (readsCounted_readEach (fun _ => readsCounted_vecBuf _ _) _).map _) _).map _

theorem readsCounted_glevs (len : ℕ) (x : GGSW w v) : ReadsCounted (readGLevs len x) :=
  (readsCounted_readEach (fun _ => (readsCounted_readEach
    (fun _ => readsCounted_readEach (fun _ => readsCounted_vecBuf _ _) _) _).map _) _).map _

theorem readsCounted_ggsw (x : GGSW w v) : ReadsCounted (ggswValueRead x) :=
  (readsCounted_lift _).bind fun _ => readsCounted_glevs _ _

theorem C70_read_gadgetParameters : ReadsCounted (gadgetReadFrom (w := w)) := readsCounted_gadget

theorem C70_read_lwePlaintext : ReadsCounted (lwePTReadFrom (v := v)) :=
  (readsCounted_vec _).bind fun _ => readsCounted_lift _

theorem C70_read_lweCiphertext : ReadsCounted (lweCTReadFrom (v := v) mem) :=
  (readsCounted_readU64.bind fun _ => readsCounted_lift _).bind fun _ => readsCounted_vec _

theorem C70_read_glwePlaintext : ReadsCounted (glwePTReadFrom (v := v) mem) :=
  (readsCounted_readU64.bind fun _ => readsCounted_lift _).bind fun _ => readsCounted_vec _

theorem C70_read_publicKeys : ReadsCounted (pkReadFrom (v := v) mem) :=
  (readsCounted_readU64.bind fun _ => readsCounted_readU64.bind fun _ => readsCounted_lift _).bind
    fun _ => (readsCounted_lift _).bind fun _ =>
      readsCounted_readEach (fun _ => readsCounted_readEach (fun _ => readsCounted_vecBuf _ _) _) _

theorem C70_read_lev : ReadsCounted (levReadFrom (w := w) mem) :=
  (readsCounted_readU64.bind fun _ => readsCounted_readU64.bind fun _ =>
    readsCounted_readU64.bind fun _ => readsCounted_lift _).bind
    fun _ => (readsCounted_lift _).bind fun _ =>
      (readsCounted_readEach (fun _ => readsCounted_vecBuf _ _) _).map _

theorem C70_read_gsw : ReadsCounted (gswReadFrom (w := w) mem) :=
  (readsCounted_readU64.bind fun _ => readsCounted_readU64.bind fun _ =>
    readsCounted_readU64.bind fun _ => readsCounted_lift _).bind fun _ => readsCounted_levs _ _

theorem C70_read_glweSecretKey : ReadsCounted (glweSKReadFrom (v := v) mem) :=
  (readsCounted_readU64.bind fun _ => readsCounted_readU64.bind fun _ => readsCounted_lift _).bind
    fun _ => readsCounted_polys _

theorem C70_read_glweCiphertext : ReadsCounted (glweCTReadFrom (v := v) mem) :=
  (readsCounted_readU64.bind fun _ => readsCounted_readU64.bind fun _ => readsCounted_lift _).bind
    fun _ => readsCounted_polys _

/-- `GLevCiphertext` at `v = w`, `FFTGLevCiphertext` at `v = 64`. -/
theorem C70_read_glev : ReadsCounted (glevReadFrom (w := w) (v := v) mem) :=
  (readsCounted_readU64.bind fun _ => readsCounted_readU64.bind fun _ =>
    readsCounted_readU64.bind fun _ => readsCounted_readU64.bind fun _ => readsCounted_lift _).bind
    fun _ => (readsCounted_lift _).bind fun _ => (readsCounted_readEach
      (fun _ => readsCounted_readEach (fun _ => readsCounted_vecBuf _ _) _) _).map _

/-- `GGSWCiphertext` at `v = w`, `FFTGGSWCiphertext` at `v = 64`. -/
theorem C70_read_ggsw : ReadsCounted (ggswReadFrom (w := w) (v := v) mem) :=
  (readsCounted_readU64.bind fun _ => readsCounted_readU64.bind fun _ =>
    readsCounted_readU64.bind fun _ => readsCounted_readU64.bind fun _ => readsCounted_lift _).bind
    fun _ => readsCounted_ggsw _

theorem C70_read_uniEncryption : ReadsCounted (uniReadFrom (w := w) (v := v) mem) :=
  (readsCounted_readU64.bind fun _ => readsCounted_readU64.bind fun _ =>
    readsCounted_readU64.bind fun _ => readsCounted_lift _).bind fun _ => readsCounted_ggsw _

theorem C70_read_lweKeySwitchKey : ReadsCounted (lweKSKReadFrom (w := w) mem) :=
  (readsCounted_readU64.bind fun _ => readsCounted_readU64.bind fun _ =>
    readsCounted_readU64.bind fun _ => readsCounted_readU64.bind fun _ => readsCounted_lift _).bind
    fun _ => (readsCounted_lift _).bind fun _ => readsCounted_levs _ _

theorem C70_read_glweKeySwitchKey : ReadsCounted (glweKSKReadFrom (w := w) mem) :=
  (readsCounted_readU64.bind fun _ => readsCounted_readU64.bind fun _ =>
    readsCounted_readU64.bind fun _ => readsCounted_readU64.bind fun _ =>
    readsCounted_readU64.bind fun _ => readsCounted_lift _).bind fun _ => readsCounted_ggsw _

theorem C70_read_blindRotateKey : ReadsCounted (brkReadFrom (w := w) mem) :=
  (readsCounted_readU64.bind fun _ => readsCounted_readU64.bind fun _ =>
    readsCounted_readU64.bind fun _ => readsCounted_readU64.bind fun _ =>
    readsCounted_readU64.bind fun _ => readsCounted_lift _).bind
    fun _ => (readsCounted_lift _).bind fun _ =>
      (readsCounted_readEach (fun _ => readsCounted_glevs _ _) _).map _

theorem C70_read_evaluationKey : ReadsCounted (evkReadFrom (w := w) mem) := by
  refine (readsCounted_readFull 1).bind fun _ => (readsCounted_lift _).bind fun present =>
    C70_read_blindRotateKey.bind fun _ => ?_
  split_ifs
  · exact readsCounted_gadget.bind fun _ => (readsCounted_lift _).map _
  · exact C70_read_lweKeySwitchKey.map _

theorem C70_read_secretKey : ReadsCounted (skReadFrom (w := w) mem) :=
  (readsCounted_readU64.bind fun _ => readsCounted_readU64.bind fun _ =>
    readsCounted_readU64.bind fun _ => readsCounted_lift _).bind
    fun _ => (readsCounted_vec _).bind fun _ => (readsCounted_polys _).map _

theorem C70_read_publicKey : ReadsCounted (pubKeyReadFrom (w := w) mem) :=
  C70_read_publicKeys.bind fun _ => C70_read_publicKeys.map _

theorem C70_read_parameters (impl : BitVec w) : ReadsCounted (paramsReadFrom impl) :=
  readsCounted_readU64.bind fun _ => readsCounted_readU64.bind fun _ =>
  readsCounted_readU64.bind fun _ => readsCounted_readU64.bind fun _ =>
  readsCounted_readU64.bind fun _ => readsCounted_readU64.bind fun _ =>
  readsCounted_readU64.bind fun _ => readsCounted_readU64.bind fun _ =>
  readsCounted_gadget.bind fun _ => readsCounted_gadget.bind fun _ =>
  (readsCounted_readFull 1).bind fun _ => (readsCounted_lift _).bind fun _ => readsCounted_lift _

theorem C70_read_mkParameters (impl : BitVec w) : ReadsCounted (mkParamsReadFrom impl) :=
  (C70_read_parameters impl).bind fun _ => readsCounted_readU64.bind fun _ =>
  readsCounted_gadget.bind fun _ => readsCounted_gadget.bind fun _ => readsCounted_lift _

/-! `mktfhe.EvaluationKey.ReadFrom` is in `Props/C73` (`C70_read_mkEvaluationKey`). -/

/-- `LWESecretKey.ReadFrom` takes the header and the entries and returns 8; on an error the count is
right. Missing: the count on success, which is wrong (C24_lweSK_count_false). -/
theorem C70_read_lweSecretKey_partial (s : Bytes) :
    match lweSKReadFrom (v := v) mem s with
    | .ok n _ rest => n = 8 ∧ ∃ m, 8 + m ≤ s.length ∧ rest = s.drop (8 + m)
    | .err n => n = s.length
    | .panic => True := by
  have h : ReadsCounted (lweSKHeaderRead (v := v) mem) :=
    readsCounted_readU64.bind fun _ => readsCounted_lift _
  have h := h s
  have h8 : ∀ n a rest, lweSKHeaderRead (v := v) mem s = .ok n a rest → n = 8 := by
    intro n a rest e
    simp only [lweSKHeaderRead, Reader.bind, readU64, Reader.map, readFull] at e
    split_ifs at e
    · simp only [Reader.pure, Reader.lift] at e
      cases hq : (newLWESecretKey (v := v) mem (BitVec.ofNat 64 (getBE (List.take 8 s)))) with
      | none => simp [hq] at e
      | some y => simp [hq] at e; exact e.1.symm
  simp only [lweSKReadFrom, Reader.bindUncounted]
  cases e : lweSKHeaderRead (v := v) mem s with
  | panic => trivial
  | err n => rw [e] at h; exact h
  | ok n a rest =>
    rw [e] at h
    obtain ⟨h1, rfl⟩ := h
    obtain rfl := h8 _ _ _ e
    have h' := readsCounted_vec a (s.drop 8)
    simp only
    cases e' : vecReadFrom a (s.drop 8) with
    | panic => trivial
    | err m => rw [e'] at h'; simp only [List.length_drop] at h' ⊢; omega
    | ok m y rest' =>
      rw [e'] at h'
      obtain ⟨h2, rfl⟩ := h'
      simp only [List.length_drop] at h2
      exact ⟨rfl, m, by omega, by rw [List.drop_drop]⟩

theorem forget_counted {α β : Type} {r : Reader α} {f : α → Reader β} (s : Bytes)
    (hs : ∀ n a rest m, r s = .ok n a rest → f a rest ≠ .err m) : r.bindForget f s = r.bind f s := by
  simp only [Reader.bindForget, Reader.bind]
  cases e : r s with
  | panic => rfl
  | err n => rfl
  | ok n a rest =>
    simp only
    cases e' : f a rest with
    | panic => rfl
    | err m => exact absurd e' (hs _ _ _ _ e)
    | ok m y rest' => rfl

theorem readU64_ok {s : Bytes} (h : 8 ≤ s.length) :
    ∃ x, readU64 s = .ok 8 x (s.drop 8) := by
  simp [readU64, Reader.map, Reader.bind, readFull, h, Reader.pure]

theorem readU64_short {s : Bytes} (h : s.length < 8) : readU64 s = .err s.length := by
  simp [readU64, Reader.map, Reader.bind, readFull, Nat.not_le.2 h]

/-- Reading a header of two fields where an error in the second forgets the count of the first: right
on streams of less than 8 and of at least 16 bytes. -/
theorem forget_header {α : Type} (f : BitVec 64 → BitVec 64 → Option α) (g : α → Reader α)
    (s : Bytes) (hs : s.length < 8 ∨ 16 ≤ s.length) :
    ((readU64.bindForget fun k => readU64.bind fun N => .lift (f k N)).bind g) s =
      ((readU64.bind fun k => readU64.bind fun N => .lift (f k N)).bind g) s := by
  have key : (readU64.bindForget fun k => readU64.bind fun N => .lift (f k N)) s =
      (readU64.bind fun k => readU64.bind fun N => .lift (f k N)) s := by
    refine forget_counted s ?_
    intro n a rest m e
    rcases hs with hs | hs
    · rw [readU64_short hs] at e; cases e
    · obtain ⟨x, hx⟩ := readU64_ok (s := s) (by omega)
      rw [hx] at e
      cases e
      obtain ⟨y, hy⟩ := readU64_ok (s := s.drop 8) (by simp; omega)
      simp only [Reader.bind, hy, Reader.lift]
      cases f a y <;> simp
  simp only [Reader.bind] at key ⊢
  rw [key]

/-- Missing: streams that end in the second header field, where the count is wrong
(`C70_read_fft_count_false`). -/
theorem C70_read_fftGLWESecretKey_partial (s : Bytes) (hs : s.length < 8 ∨ 16 ≤ s.length) :
    fftGLWESKReadFrom mem s = glweSKReadFrom (v := 64) mem s :=
  forget_header _ _ s hs

/-- Missing: streams that end in the second header field, where the count is wrong
(`C70_read_fft_count_false`). -/
theorem C70_read_fftGLWECiphertext_partial (s : Bytes) (hs : s.length < 8 ∨ 16 ≤ s.length) :
    fftGLWECTReadFrom mem s = glweCTReadFrom (v := 64) mem s :=
  forget_header _ _ s hs

theorem C70_read_fft_count_false (s : Bytes) (h8 : 8 ≤ s.length) (h16 : s.length < 16) :
    fftGLWESKReadFrom mem s = .err (s.length - 8) ∧
      fftGLWECTReadFrom mem s = .err (s.length - 8) := by
  obtain ⟨x, hx⟩ := readU64_ok h8
  have hy := readU64_short (s := s.drop 8) (by simp; omega)
  simp only [List.length_drop] at hy
  constructor
  · simp [fftGLWESKReadFrom, Reader.bind, Reader.bindForget, hx, hy]
  · simp [fftGLWECTReadFrom, Reader.bind, Reader.bindForget, hx, hy]

/-! ## Objects that meet the hypotheses -/

example : ∃ b, evkWriteTo ⟨exBRK, exKSK⟩ = some ⟨b, false⟩ ∧
    WritesTo (evkW ⟨exBRK, exKSK⟩ : Prog ℕ) b := by
  obtain ⟨b, h, _⟩ := C24_evaluationKey (by norm_num) (by norm_num) (by norm_num) exEvk_ok
  exact ⟨b, h, C70_evaluationKey h⟩

example : WritesTo (skW exSK : Prog ℕ) ((skWriteTo exSK).get (by decide +kernel)).bytes :=
  C70_secretKey (by decide +kernel)

example : WritesTo (ggswW (exGGSW 64) : Prog ℕ)
    ((ggswWriteTo (exGGSW 64)).get (by decide +kernel)).bytes := C70_ggsw (by decide +kernel)

/-- A ciphertext on a disk with room for ten bytes: the header and half of the first entry get there,
the count is 10 and there is an error. -/
example : lweCTW [(0x01020304 : BitVec 32), 8, 9] diskSink 10 =
    some ⟨0, [⟨[0, 0, 0, 0, 0, 0, 0, 2], 8, false⟩, ⟨[1, 2, 3, 4], 2, true⟩], 10, true⟩ := by
  decide +kernel

/-- With enough room there is no error. -/
example : (lweCTW [(0x01020304 : BitVec 32), 8, 9] diskSink 20).map (fun o => (o.n, o.err)) =
    some (20, false) := by
  decide +kernel

example : ∃ o, fftGLWECTW (exPolys 64) diskSink 12 = some o ∧ o.err = true ∧ o.n = 4 ∧
    (accepted o.log).length = 12 :=
  C70_fftGLWECiphertext_count_false
    (b := ((glweCTWriteTo (exPolys 64)).get (by decide +kernel)).bytes) (by decide +kernel)

example : ∃ r o, mkEvkW (⟨⟨exBRK, exKSK⟩, exGLev 64, exGGSW 64⟩ : MKEvalKey 32) diskSink r = some o ∧
    o.err = true ∧ o.n + 8 = (accepted o.log).length := by
  obtain ⟨b, h, _⟩ := C24_mkEvaluationKey (x := ⟨⟨exBRK, exKSK⟩, exGLev 64, exGGSW 64⟩) (by norm_num)
    (by norm_num) (by norm_num) (by norm_num) exEvk_ok exGadget_ok exGadget_ok exGLev_ok exGGSW_ok
  exact C70_mkEvaluationKey_count_false h

/-- A stream that ends in the second header field. -/
example : fftGLWECTReadFrom (2 ^ 40) (putLen 1 ++ [0, 0, 0]) = .err 3 ∧
    glweCTReadFrom (v := 64) (2 ^ 40) (putLen 1 ++ [0, 0, 0]) = .err 11 := by
  decide +kernel

end Tfhe.Ser
