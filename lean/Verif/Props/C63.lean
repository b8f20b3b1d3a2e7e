import Verif.Model.MkEncFloat
import Verif.Props.C31
import Verif.Props.C32
import Verif.Props.C61

/-!
# C63: fresh multi-key encryptions under the published parameter sets always decrypt
-/
namespace Tfhe.Mk
open Rng Gauss Fft Poly Enc Published

namespace Fresh

/-- The base of a published multi-key set is published, and its dimensions are positive. -/
theorem sub_ok {lit : MKParamsLit 64} (h : lit ∈ allMKParamsLit64) {impl : BitVec 64} {p : MKParams 64}
    (hp : lit.compile impl = some p) :
    IsPublished 64 lit.subParams ∧ lit.subParams.compile impl = some p.subParams ∧ 0 < p.subParams.defaultLWEDimension.toNat := by
  have e1 : ∀ lit ∈ allMKParamsLit64, lit.subParams ∈ base64 ∧
      ((lit.subParams.compile 0).any fun p => decide (0 < p.defaultLWEDimension.toNat)) = true := by decide +kernel
  obtain ⟨h1, h2⟩ := e1 lit h
  have hc : lit.subParams.compile impl = some p.subParams := by
    unfold MKParamsLit.compile at hp
    rw [Option.bind_eq_some_iff] at hp
    obtain ⟨s, hs, hp⟩ := hp
    split at hp
    · cases hp
    · split at hp
      · cases hp
      · split at hp
        · cases hp
        · simp only [Option.bind_eq_some_iff, Option.some.injEq] at hp
          obtain ⟨_, _, _, _, rfl⟩ := hp
          exact hs
  refine ⟨.w64 _ h1, hc, ?_⟩
  have := Pubd.ok64 _ h1
  unfold Pubd.okLit at this
  rw [Bool.and_eq_true] at this
  rw [← Pubd.compile_impl _ impl this.1, hc] at h2
  simpa using h2
end Fresh

section
variable {lit : MKParamsLit 64} (hpub : lit ∈ allMKParamsLit64) {impl : BitVec 64} {p : MKParams 64}
  (hp : lit.compile impl = some p) {M : Libm} (hM : GoodLibm M) {idx : ℕ} (hidx : idx < p.partyCount.toNat)
include hpub hp hM hidx

/-- **C63, LWE.**  Under every published multi-key set, what `EncryptLWE` of a party returns decrypts to the message with every
decryptor that holds the key of that party, whatever other keys it holds, for every stream of random words; nothing panics. -/
theorem C63_lwe (sk mask : Fin p.subParams.defaultLWEDimension.toNat → BitVec 64) (message : BitVec 64)
    {d : Decryptor (Fin p.subParams.defaultLWEDimension.toNat → BitVec 64)} {held} (hd : Holds p.partyCount.toNat d held)
    (hk : held idx = some sk) :
    Always M (encryptLWEFl M p.partyCount.toNat idx (stdDevQ M 64 p.subParams.defaultLWEStdDev) sk mask
      (encodeLWECustom message p.subParams.messageModulus p.subParams.scale)) fun ct =>
      ((decryptLWEPhase d ct).bind fun x => decodeLWECustom x p.subParams.messageModulus p.subParams.scale) =
        some ((message.toNat % p.subParams.messageModulus.toNat : ℕ) : ℤ) := by
  obtain ⟨h1, h2, h3⟩ := Fresh.sub_ok hpub hp
  refine Always.bind (C61_lwe h1 h2 hM sk mask message) fun sub hsub => ?_
  obtain ⟨ct, e1, e2⟩ := mkLWECopyFromSubKey_phase p.partyCount.toNat _ idx h3 hidx (jointLWE held)
    (fun j => if h : j < p.subParams.defaultLWEDimension.toNat then sk ⟨j, h⟩ else 0)
    (fun j hj => by rw [jointLWE_block held idx ⟨j, hj⟩, hk]; simp [hj]) (ext0 sub)
  refine Always.ofPanic e1 ?_
  have e3 : (fun t : Fin p.subParams.defaultLWEDimension.toNat =>
      if h : (t : ℕ) < p.subParams.defaultLWEDimension.toNat then sk ⟨t, h⟩ else 0) = sk := by funext t; simp
  have e4 : (fun t : Fin (p.subParams.defaultLWEDimension.toNat + 1) => ext0 sub t) = sub := by
    funext t; simp only [ext0, t.2, dif_pos, Fin.eta]
  rw [decryptLWEPhase_eq hd, e2, e3, e4, Option.bind_some, ← C05_decryptPhase, hsub, BitVec.setWidth_eq]

variable {F : Float64} (hF : Accurate F) {l : ℕ} (hl : p.subParams.logPolyRank = l + 4) {e : Eval ℝ}
  (he : newEvaluatorFl F.arith F.cis p.subParams.polyRank = some e) (signed : Bool)
include hF hl he

omit hM hidx in
/-- Decryption with rounded products computes the exact phase, if the keys held have coefficients up to `2^8`. -/
theorem C63_decryptGLWE {d : Decryptor (Poly (2 ^ (l + 4)) (BitVec 64))} {held} {P : ℕ} (hd : Holds P d held)
    (hs : ∀ i s, held i = some s → ∀ t, |(s t).toInt| ≤ 2 ^ 8) (old oldKey : ℕ → Fin 1 → ℕ → ℝ)
    (ct : ℕ → Poly (2 ^ (l + 4)) (BitVec 64)) :
    decryptGLWEPhaseFl F signed e d old oldKey ct =
      some (phase (fun i : Fin P => jointGLWE held i) (fun t : Fin (P + 1) => ct t)) := by
  obtain ⟨h1, h2, -⟩ := Fresh.sub_ok hpub hp
  have R := Pubd.roomy h1 h2
  obtain ⟨r1, r2, r3⟩ := R.rank
  rw [hl] at r2 r3
  have h0 : Mk.decryptGLWEPhase d 0 ct = some (phase (fun i : Fin P => jointGLWE held i) (fun t : Fin (P + 1) => ct t)) := by
    rw [mkDecryptGLWEPhase_eq hd]; simp
  rw [← h0]
  unfold decryptGLWEPhaseFl Mk.decryptGLWEPhase
  rw [hd.len]
  have key : ∀ (l' : List ℕ) (a : Poly (2 ^ (l + 4)) (BitVec 64)), (∀ i ∈ l', i < P) →
      l'.foldlM (fun pt i => if d.on.getD i false then (d.subs[i]?).join.bind fun s =>
          Enc.decryptGLWEPhase F signed e (old i) (fwdFFTKey F e (oldKey i) (fun _ : Fin 1 => s)) (Fin.cons pt fun _ => ct (1 + i))
        else some pt) a =
      l'.foldlM (fun pt i => if d.on.getD i false then (d.subs[i]?).join.map fun s =>
          Tfhe.decryptGLWEPhase (fun _ : Fin 1 => s) (fun _ => (0 : ℕ → Poly (2 ^ (l + 4)) (BitVec 64)) i)
            (Fin.cons pt fun _ => ct (1 + i)) else some pt) a := by
    intro l'
    induction l' with
    | nil => intros; rfl
    | cons i l' ih =>
      intro a hi
      rw [List.foldlM_cons, List.foldlM_cons]
      have e1 : (if d.on.getD i false then (d.subs[i]?).join.bind fun s =>
            Enc.decryptGLWEPhase F signed e (old i) (fwdFFTKey F e (oldKey i) (fun _ : Fin 1 => s)) (Fin.cons a fun _ => ct (1 + i))
          else some a) = (if d.on.getD i false then (d.subs[i]?).join.map fun s =>
            Tfhe.decryptGLWEPhase (fun _ : Fin 1 => s) (fun _ => (0 : ℕ → Poly (2 ^ (l + 4)) (BitVec 64)) i)
              (Fin.cons a fun _ => ct (1 + i)) else some a) := by
        rw [hd.on i (hi i (by simp))]
        cases hh : held i with
        | none => simp
        | some s =>
          rw [hd.sub i (hi i (by simp)) s hh]
          simp only [Option.isSome_some, if_true, Option.join_some, Option.bind_some, Option.map_some]
          rw [Enc.decryptGLWEPhase_eq hF r3 he (by norm_num) (by norm_num) (by omega) signed (old i) (oldKey i) (fun _ : Fin 1 => s)
            (fun _ t => hs i s hh t)]
          have := C07_decryptPhase (fun _ : Fin 1 => s) (fun _ => (0 : Poly (2 ^ (l + 4)) (BitVec 64))) (Fin.cons a fun _ => ct (1 + i))
          rw [Finset.sum_const_zero, add_zero] at this
          rw [← this]
          rfl
      rw [e1]
      congr 1
      funext b
      exact ih b fun j hj => hi j (by simp [hj])
  exact key _ _ fun i hi => List.mem_range.mp hi

/-- **C63, GLWE.**  The same for `EncryptGLWE`, with products computed in floating point. -/
theorem C63_glwe {d : Decryptor (Poly (2 ^ (l + 4)) (BitVec 64))} {held} (hd : Holds p.partyCount.toNat d held)
    (hs : ∀ i s, held i = some s → ∀ t, |(s t).toInt| ≤ 2 ^ 8) (sk : Poly (2 ^ (l + 4)) (BitVec 64)) (hk : held idx = some sk)
    (old old' : Fin 1 → ℕ → ℝ) (oldD oldKey : ℕ → Fin 1 → ℕ → ℝ) (mask : Fin 1 → Poly (2 ^ (l + 4)) (BitVec 64))
    (messages : List (BitVec 64)) (pt : Poly (2 ^ (l + 4)) (BitVec 64))
    (hpt : Poly.toList pt = encodeGLWECustom (2 ^ (l + 4)) messages p.subParams.messageModulus p.subParams.scale) (outLen : ℕ) :
    Always M (encryptGLWEFl F M signed e p.partyCount.toNat idx (stdDevQ M 64 p.subParams.glweStdDev) old
      (fwdFFTKey F e old' fun _ => sk) mask pt) fun ct =>
      ∃ ph out, decryptGLWEPhaseFl F signed e d oldD oldKey (ext0 ct) = some ph ∧
        decodeGLWECustom outLen (Poly.toList ph) p.subParams.messageModulus p.subParams.scale = some out ∧
        out.length = min outLen (2 ^ (l + 4)) ∧
        ∀ i, i < min outLen (2 ^ (l + 4)) → out[i]? = some (if h : i < messages.length then
          ((messages[i].toNat % p.subParams.messageModulus.toNat : ℕ) : ℤ) else 0) := by
  obtain ⟨h1, h2, -⟩ := Fresh.sub_ok hpub hp
  have R := Pubd.roomy h1 h2
  obtain ⟨r1, r2, r3⟩ := R.rank
  rw [hl] at r2 r3
  refine Always.bind (C61_glwe h1 h2 hM hF hl he signed old old old' (fun _ => sk) mask (fun _ => hs idx sk hk) messages pt hpt outLen)
    fun sub hsub => ?_
  obtain ⟨ct, e1, e2⟩ := mkGLWECopyFromSubKey_phase p.partyCount.toNat idx hidx (fun i => jointGLWE held i) (fun _ => sk)
    (by simp [jointGLWE, hk]) sub
  refine Always.ofPanic e1 ?_
  obtain ⟨ph, out, g1, g2, g3, g4⟩ := hsub
  rw [Enc.decryptGLWEPhase_eq hF r3 he (by norm_num) (by norm_num) (by omega) signed old old' (fun _ => sk) (fun _ => hs idx sk hk)] at g1
  refine ⟨ph, out, ?_, g2, g3, fun i hi => ?_⟩
  · rw [C63_decryptGLWE hpub hp hF hl he signed hd hs]
    have e4 : (fun t : Fin (p.partyCount.toNat + 1) => ext0 ct t) = ct := by
      funext t; simp only [ext0, t.2, dif_pos, Fin.eta]
    rw [e4, e2]
    exact g1
  · rw [g4 i hi]
    simp only [BitVec.setWidth_eq]
end

/-! ## Cases -/

/-- `ParamsBinaryParty2`: party 1 of 2 encrypts the message 1 with a stream at the bound of the noise; a decryptor made from the keys
of both parties returns 1, and so does one that holds the key of party 1 only. -/
example : ∃ p, paramsBinaryParty2.compile 0 = some p ∧ p.partyCount.toNat = 2 ∧ p.subParams.messageModulus = 2 ∧
    ∀ sk0 sk1 mask : Fin p.subParams.defaultLWEDimension.toNat → BitVec 64, ∃ d ct rest,
      newDecryptor 2 [(0, sk0), (1, sk1)] = some d ∧
      encryptLWEFl exLibm 2 1 (stdDevQ exLibm 64 p.subParams.defaultLWEStdDev) sk1 mask
        (encodeLWECustom 1 p.subParams.messageModulus p.subParams.scale) [0xFFFFFF00, 512, 0, 1234] = .ok ct rest ∧
      (∀ d' ∈ [d, ⟨[none, some sk1], [none, some sk1], [false, true]⟩],
        ((decryptLWEPhase d' ct).bind fun x => decodeLWECustom x p.subParams.messageModulus p.subParams.scale) = some 1) := by
  have hpub : paramsBinaryParty2 ∈ allMKParamsLit64 := by decide +kernel
  obtain ⟨p, hp⟩ := Option.isSome_iff_exists.mp ((C61_compile_others 0 0).1 _ hpub)
  have hpm : (paramsBinaryParty2.compile 0).map (fun p => (p.partyCount.toNat, p.subParams.messageModulus)) = some (2, 2) := by
    decide +kernel
  rw [hp, Option.map_some, Option.some.injEq, Prod.mk.injEq] at hpm
  obtain ⟨hP, hmod⟩ := hpm
  refine ⟨p, hp, hP, hmod, fun sk0 sk1 mask => ?_⟩
  obtain ⟨h1, h2, h3⟩ := Fresh.sub_ok hpub hp
  have R := Pubd.roomy h1 h2
  have h0 : 1 / 8 ≤ f64Val p.subParams.defaultLWEStdDev * 2 ^ 64 := by
    unfold Params.defaultLWEStdDev
    split
    · exact R.sigma.1
    · exact R.sigma.2
  obtain ⟨v, hs⟩ : ∃ v, sample exLibm 64 (stdDevQ exLibm 64 p.subParams.defaultLWEStdDev) [0xFFFFFF00, 512, 0, 1234] = .ok v [1234] := by
    rw [sample, if_neg (not_lt.mpr (le_trans (by norm_num) (Pubd.stdDev_near exLibm_good 64 _ h0).1)), exNorm, Option.map_some]
    exact ⟨_, rfl⟩
  have he : Enc.encryptLWE exLibm (stdDevQ exLibm 64 p.subParams.defaultLWEStdDev) sk1 mask
      (encodeLWECustom 1 p.subParams.messageModulus p.subParams.scale) [0xFFFFFF00, 512, 0, 1234] =
      .ok (encryptLWEPlaintext sk1 mask v (encodeLWECustom 1 p.subParams.messageModulus p.subParams.scale)) [1234] :=
    Pubd.bind_ok hs
  obtain ⟨ct, e1, -⟩ := mkLWECopyFromSubKey_phase 2 _ 1 h3 (by norm_num) (fun _ => 0) (fun _ => 0) (fun _ _ => rfl)
    (ext0 (encryptLWEPlaintext sk1 mask v (encodeLWECustom 1 p.subParams.messageModulus p.subParams.scale)))
  have hc : encryptLWEFl exLibm 2 1 (stdDevQ exLibm 64 p.subParams.defaultLWEStdDev) sk1 mask
      (encodeLWECustom 1 p.subParams.messageModulus p.subParams.scale) [0xFFFFFF00, 512, 0, 1234] = .ok ct [1234] := by
    refine (Pubd.bind_ok he).trans ?_
    rw [e1]
    rfl
  refine ⟨⟨[some sk0, some sk1], [some sk0, some sk1], [true, true]⟩, ct, [1234], rfl, hc, ?_⟩
  have key : ∀ d held, Holds 2 d held → held 1 = some sk1 →
      ((decryptLWEPhase d ct).bind fun x => decodeLWECustom x p.subParams.messageModulus p.subParams.scale) = some 1 := by
    intro d held hd hk
    have := (C63_lwe hpub hp exLibm_good (idx := 1) (by omega) sk1 mask 1 (hP ▸ hd) hk _ (.inl exLibm_saturates)).2 ct [1234]
      (by rw [hP]; exact hc)
    rw [this.1, hmod]
    rfl
  intro d' hd'
  rw [List.mem_cons, List.mem_singleton] at hd'
  rcases hd' with rfl | rfl
  · refine key _ (fun i => if i = 0 then some sk0 else some sk1) ⟨rfl, fun i hi => ?_, fun i hi s h => ?_⟩ rfl <;>
      interval_cases i <;> simp_all
  · refine key _ (fun i => if i = 1 then some sk1 else none) ⟨rfl, fun i hi => ?_, fun i hi s h => ?_⟩ rfl <;>
      interval_cases i <;> simp_all

/-- The evaluator of `ParamsBinaryParty2` exists on a platform that fuses products with sums: the theorem on GLWE applies. -/
example : ∃ p l e, paramsBinaryParty2.compile 0 = some p ∧ p.subParams.logPolyRank = l + 4 ∧
    newEvaluatorFl (exPlatform .left).arith (exPlatform .left).cis p.subParams.polyRank = some e := by
  have hpub : paramsBinaryParty2 ∈ allMKParamsLit64 := by decide +kernel
  obtain ⟨p, hp⟩ := Option.isSome_iff_exists.mp ((C61_compile_others 0 0).1 _ hpub)
  obtain ⟨h1, h2, -⟩ := Fresh.sub_ok hpub hp
  obtain ⟨r1, r2, r3⟩ := (Pubd.roomy h1 h2).rank
  obtain ⟨l, hl⟩ : ∃ l, p.subParams.logPolyRank = l + 4 := ⟨p.subParams.logPolyRank - 4, by omega⟩
  rw [hl] at r3
  obtain ⟨e, he, -⟩ := C56_newEvaluator (exPlatform_ok .left) r3
  exact ⟨p, l, e, hp, hl, he⟩

end Tfhe.Mk
