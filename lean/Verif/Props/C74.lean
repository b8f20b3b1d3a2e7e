import Verif.Model.MkSetup
import Verif.Props.C34Gate
import Verif.Props.C41

/-!
# C74: parties that share only a seed make keys that work together
-/
namespace Tfhe.Mk
open Finset Poly Rng

/-! ### The common reference string -/

/-- Coefficient `j` of polynomial `i` of the common reference string that belongs to a stream of bytes: the little-endian word
number `i * N + j` of the stream. -/
def crsWord (bytes N : ℕ) (ks : ℕ → BitVec 8) (i j : ℕ) : ℕ :=
  leWord bytes fun t => outByte ks ((i * N + j) * bytes + t)

theorem sampleVec_next (ks : ℕ → BitVec 8) (bytes : ℕ) (hb0 : 0 < bytes) (hb8 : bytes ≤ 8) (hd : bytes ∣ 8192) (n : ℕ) :
    ∀ (j : ℕ) (s : Uniform), UInv ks (j * bytes) s → ∃ l s', s.sampleVec ks bytes n = some (l, s') ∧ l.length = n ∧
      UInv ks ((j + n) * bytes) s' ∧
      ∀ i (hi : i < l.length), l[i].toNat = leWord bytes fun t => outByte ks ((j + i) * bytes + t) := by
  induction n with
  | zero => intro j s h; exact ⟨[], s, rfl, rfl, h, by simp⟩
  | succ n ih =>
    intro j s h
    obtain ⟨x, s1, h1, h2, h3⟩ := sample_inv ks bytes hb0 hb8 hd j s h
    obtain ⟨l, s2, h4, h5, h6, h7⟩ := ih (j + 1) s1 h2
    refine ⟨x :: l, s2, ?_, by simp [h5], ?_, ?_⟩
    · simp [Uniform.sampleVec, h1, h4]
    · rw [show j + (n + 1) = j + 1 + n by ring]; exact h6
    · intro i hi
      cases i with
      | zero => simpa using h3
      | succ i =>
        simp only [List.getElem_cons_succ]
        rw [h7 i (by simpa using hi), show j + (i + 1) = j + 1 + i by ring]

theorem sampleCRS_spec (ks : ℕ → BitVec 8) (bytes N : ℕ) (hb0 : 0 < bytes) (hb8 : bytes ≤ 8) (hd : bytes ∣ 8192) (L : ℕ) :
    ∀ (k : ℕ) (s : Uniform), UInv ks (k * N * bytes) s → ∃ l s', sampleCRS ks bytes N L s = some (l, s') ∧ l.length = L ∧
      ∀ i (hi : i < l.length), (l[i]).length = N ∧
        ∀ j (hj : j < (l[i]).length), (l[i])[j].toNat = crsWord bytes N ks (k + i) j := by
  induction L with
  | zero => intro k s _; exact ⟨[], s, rfl, rfl, by simp⟩
  | succ L ih =>
    intro k s h
    obtain ⟨p, s1, h1, h2, h3, h4⟩ := sampleVec_next ks bytes hb0 hb8 hd N (k * N) s h
    obtain ⟨l, s2, h5, h6, h7⟩ := ih (k + 1) s1 (by rw [add_mul, one_mul]; exact h3)
    refine ⟨p :: l, s2, ?_, by simp [h6], ?_⟩
    · simp [sampleCRS, h1, h5]
    · intro i hi
      cases i with
      | zero => exact ⟨by simpa using h2, fun j hj => by simpa [crsWord] using h4 j hj⟩
      | succ i =>
        simp only [List.getElem_cons_succ]
        rw [show k + (i + 1) = k + 1 + i by ring]
        exact h7 i (by simpa using hi)

/-- The common reference string of a seed. -/
def IsCRS (bytes N L : ℕ) (ks : ℕ → BitVec 8) (crs : List (List (BitVec (8 * bytes)))) : Prop :=
  crs.length = L ∧ ∀ i (hi : i < crs.length), (crs[i]).length = N ∧
    ∀ j (hj : j < (crs[i]).length), (crs[i])[j].toNat = crsWord bytes N ks i j

theorem isCRS_unique {bytes N L : ℕ} {ks : ℕ → BitVec 8} {a b : List (List (BitVec (8 * bytes)))}
    (ha : IsCRS bytes N L ks a) (hb : IsCRS bytes N L ks b) : a = b := by
  apply List.ext_getElem (by rw [ha.1, hb.1])
  intro i h1 h2
  obtain ⟨a1, a2⟩ := ha.2 i h1
  obtain ⟨b1, b2⟩ := hb.2 i h2
  apply List.ext_getElem (by rw [a1, b1])
  intro j h3 h4
  apply BitVec.eq_of_toNat_eq
  rw [a2 j h3, b2 j h4]

theorem sampleCRS_new (ks : ℕ → BitVec 8) (bytes N L : ℕ) (hb : bytes = 4 ∨ bytes = 8) :
    ∃ l s', sampleCRS ks bytes N L Uniform.new = some (l, s') ∧ IsCRS bytes N L ks l := by
  obtain ⟨l, s', h1, h2, h3⟩ := sampleCRS_spec ks bytes N (by omega) (by omega)
    (by rcases hb with rfl | rfl <;> decide) L 0 Uniform.new (by simpa using uInv_new ks)
  exact ⟨l, s', h1, h2, by simpa using h3⟩

section
variable (prng : List (BitVec 8) → ℕ → BitVec 8) {bytes : ℕ} (N : ℕ) (sp : SetupParams (8 * bytes)) (idx : ℤ)
  (crsSeed : List (BitVec 8)) (words : List (BitVec 64))

/-- **C74 (the common reference string).**  The common reference string of an encryptor made by `NewEncryptor` is a function of
the seed, the degree and the number of levels only: not of the index, nor of the key, nor of the samples of the party. -/
theorem C74_crs (hb : bytes = 4 ∨ bytes = 8) (e : Enc (8 * bytes)) (rest : List (BitVec 64))
    (h : setupEncryptor prng N sp idx crsSeed words = .ok e rest) :
    IsCRS bytes N sp.gr.level (prng crsSeed) e.crs ∧ genSecretKey (sp.bs * sp.bc) N sp.bs words = .ok e.key rest ∧
      e.words = rest ∧ e.index = idx ∧ idx ≤ sp.P := by
  obtain ⟨l, s', h1, h2⟩ := sampleCRS_new (prng crsSeed) bytes N sp.gr.level hb
  unfold setupEncryptor newEncryptor at h
  by_cases hi : idx > sp.P
  · simp [if_pos hi] at h
  · rw [if_neg hi] at h
    simp only [h1] at h
    cases hk : (genSecretKey (sp.bs * sp.bc) N sp.bs words : Outcome 64 (ℕ → BitVec (8 * bytes))) with
    | panic => simp [hk] at h
    | reading => simp [hk] at h
    | ok key r =>
      simp only [hk, Outcome.ok.injEq] at h
      obtain ⟨h3, h4⟩ := h
      subst h3
      subst h4
      exact ⟨h2, rfl, rfl, rfl, by omega⟩

/-- The same for `NewEncryptorWithKey`, which keeps the key. -/
theorem C74_crs_withKey (hb : bytes = 4 ∨ bytes = 8) (key : ℕ → BitVec (8 * bytes)) (e : Enc (8 * bytes))
    (h : setupEncryptorWithKey prng N sp idx crsSeed key words = some e) :
    IsCRS bytes N sp.gr.level (prng crsSeed) e.crs ∧ e.key = key ∧ e.words = words ∧ e.index = idx ∧ idx ≤ sp.P := by
  obtain ⟨l, s', h1, h2⟩ := sampleCRS_new (prng crsSeed) bytes N sp.gr.level hb
  unfold setupEncryptorWithKey newEncryptor at h
  by_cases hi : idx > sp.P
  · simp [if_pos hi] at h
  · rw [if_neg hi, h1] at h
    simp only [Option.bind_some, Option.map_some, Option.some.injEq] at h
    subst h
    exact ⟨h2, rfl, rfl, rfl, by omega⟩

/-- **C74 (no panics).**  With valid parameters neither the setup nor key generation panics. -/
theorem C74_no_panic [NeZero N] (hb : bytes = 4 ∨ bytes = 8) (hbs : 0 < sp.bs) (hidx : idx ≤ sp.P) :
    setupEncryptor prng N sp idx crsSeed words ≠ .panic ∧
    ∀ e rest, setupEncryptor prng N sp idx crsSeed words = .ok e rest → ∀ r, genEvalKey N sp e r ≠ .panic := by
  obtain ⟨l, s', h1, h2⟩ := sampleCRS_new (prng crsSeed) bytes N sp.gr.level hb
  constructor
  · have hk : (genSecretKey (sp.bs * sp.bc) N sp.bs words : Outcome 64 (ℕ → BitVec (8 * bytes))) ≠ .panic := by
      unfold genSecretKey
      have hof : ∀ o : Option ((ℕ → BitVec (8 * bytes)) × List (BitVec 64)), Outcome.ofOption o ≠ .panic := by
        intro o; cases o <;> simp [Outcome.ofOption]
      split
      · exact hof _
      · split
        · rename_i hp
          unfold sampleBlockVec at hp
          have h0 : ¬ ((sp.bs : ℤ) = 0) := by omega
          have h3 : ¬ ((((sp.bs * sp.bc : ℕ) : ℤ)).tmod sp.bs ≠ 0) := by
            rw [not_not, Nat.cast_mul]; exact Int.mul_tmod_right _ _
          rw [if_neg h0, if_neg h3] at hp
          split at hp
          · simp at hp
          · rw [if_neg (by omega)] at hp
            exact absurd hp (hof _)
        · simp
        · exact hof _
    unfold setupEncryptor newEncryptor
    rw [if_neg (by omega)]
    simp only [h1]
    cases hk' : (genSecretKey (sp.bs * sp.bc) N sp.bs words : Outcome 64 (ℕ → BitVec (8 * bytes))) with
    | panic => exact absurd hk' hk
    | reading => simp
    | ok key r => simp
  · intro e rest he r
    have := (C74_crs prng N sp idx crsSeed words hb e rest he).1.1
    unfold genEvalKey
    rw [if_neg (by omega)]
    split <;> simp
end

/-! ### The keys fit together -/

section
variable {bytes N : ℕ} [NeZero N]

/-- The noises of a party are in the bounds. -/
structure KeyRand.Bounded {w n : ℕ} (r : KeyRand w N n) (L Bbr Br Bks : ℕ) : Prop where
  crs : ∀ j, pabs (r.crsNoise j - r.crsErr j) ≤ Br
  n0 : ∀ j, pabs (r.err0 j + r.noise0 j) ≤ Br
  n1 : ∀ j, pabs (r.noise1 j - r.err1 j) ≤ Br
  br : ∀ j t l, pabs (r.brNoise j t l - ∑ q : Fin 1, r.brErr j t l q) ≤ Bbr
  ks : ∀ j l, l < L → wabs (r.ksNoise j l) ≤ Bks

/-- A multi-key computation: the parameters, and one encryptor and evaluation key per party. -/
structure Parties (bytes N : ℕ) where
  sp : SetupParams (8 * bytes)
  gacc : GadgetParams (8 * bytes)
  p : BitVec (8 * bytes)
  s : BitVec (8 * bytes)
  enc : ℕ → Enc (8 * bytes)
  evk : ℕ → PartyKey (8 * bytes) N (sp.bs * sp.bc)
  /-- the parties whose keys the evaluator got -/
  given : ℕ → Bool
  Bbr : ℕ
  Br : ℕ
  Bks : ℕ
  Fe : ℕ
  Fa : ℕ
  Fs : ℕ
  F : ℕ

/-- Everybody called `NewEncryptor` with the same seed, or `NewEncryptorWithKey` with the same seed and a key that `GenSecretKey`
made, and then `GenEvalKey`; nothing else is shared. -/
structure Parties.Made (c : Parties bytes N) (prng : List (BitVec 8) → ℕ → BitVec 8) (seed : List (BitVec 8)) : Prop where
  enc : ∀ i < c.sp.P, c.given i →
    (∃ words rest, setupEncryptor prng N c.sp i seed words = .ok (c.enc i) rest) ∨
    (∃ kwords krest key words, genSecretKey (c.sp.bs * c.sp.bc) N c.sp.bs kwords = .ok key krest ∧
      setupEncryptorWithKey prng N c.sp i seed key words = some (c.enc i))
  evk : ∀ i < c.sp.P, c.given i → ∃ r rest, r.Bounded c.sp.gks.level c.Bbr c.Br c.Bks ∧
    genEvalKey N c.sp (c.enc i) r = .ok (c.evk i) rest

/-- Parameters that `Compile` accepts. -/
structure Parties.ParamsOK (c : Parties bytes N) : Prop where
  bytes_ok : bytes = 4 ∨ bytes = 8
  gacc_ok : c.gacc.Valid
  gbr_ok : c.sp.gbr.Valid
  gr_ok : c.sp.gr.Valid
  gks_ok : c.sp.gks.Valid
  bs_ok : 0 < c.sp.bs
  bs_lt : c.sp.bs < 2 ^ 63
  bc_ok : 0 < c.sp.bc
  dim_ok : c.sp.bs * c.sp.bc ≤ N
  N_ok : 2 * N ≤ 2 ^ 53
  p0 : c.p ≠ 0
  pw : 2 * c.p.toNat < 2 ^ (8 * bytes)
  p52 : c.p.toNat ≤ 2 ^ 52
  pL : c.p.toNat * N ≤ 2 ^ 51
  scale : compileScale (8 * bytes) c.p.toNat = some c.s.toNat

/-- What the evaluator holds. -/
def Parties.boot (c : Parties bytes N) : MBoot (8 * bytes) N c.sp.P where
  keys := evalKeys N c.given c.evk
  gacc := c.gacc
  gbr := c.sp.gbr
  gr := c.sp.gr
  gks := c.sp.gks
  bs := c.sp.bs
  bc := c.sp.bc
  p := c.p
  s := c.s
  lk := fun i j => decide ((c.enc i).key j = 1)
  brk := fun i => (c.evk i).brk
  ksk := fun i => if c.given i then some (c.evk i).ksk else none
  Bbr := c.Bbr
  Br := c.Br
  Bks := c.Bks
  Fe := c.Fe
  Fa := c.Fa
  Fs := c.Fs
  F := c.F

theorem bv_zero_ne_one {w : ℕ} (hw : 0 < w) : (0 : BitVec w) ≠ 1 := fun h => by
  have := congrArg BitVec.toNat h
  rw [show (1 : BitVec w) = 1#w from rfl, BitVec.toNat_ofNat, Nat.mod_eq_of_lt (Nat.one_lt_two_pow (by omega))] at this
  simp at this

theorem decide_kbit {w : ℕ} (hw : 0 < w) (b : Bool) : decide (kbit w b = 1) = b := by
  cases b
  · exact decide_eq_false (bv_zero_ne_one hw)
  · exact decide_eq_true rfl

/-- The elements after the key are not written. -/
theorem genSecretKey_frame {w : ℕ} (n dim bs : ℕ) (hbs : bs < 2 ^ 63) (hn : n ≤ dim) (words rest : List (BitVec 64))
    (key : ℕ → BitVec w) (h : genSecretKey n dim bs words = .ok key rest) (j : ℕ) (hj : dim ≤ j) : key j = 0 := by
  have hvec : ∀ (off len : ℕ) (out out' : ℕ → BitVec w) (ws rest : List (BitVec 64)),
      Outcome.ofOption (sampleVec off len out ws) = .ok out' rest → off + len ≤ j → out' j = out j := by
    intro off len out out' ws rest h hj
    obtain ⟨hl, -⟩ := ok_sampleVec off len out out' ws rest h
    obtain ⟨o, h1, -, h3⟩ := C41_bits off len out ws hl
    rw [h1] at h
    simp only [Outcome.ofOption, Outcome.ok.injEq] at h
    obtain ⟨rfl, rfl⟩ := h
    exact h3 j (Or.inr hj)
  unfold genSecretKey at h
  split at h
  · exact hvec _ _ _ _ _ _ h (by omega)
  · split at h
    · simp at h
    · simp at h
    · rename_i out mid hout
      rw [hvec _ _ _ _ _ _ h (by omega)]
      obtain ⟨-, -, -, -, -, h4⟩ := C41_blocks n bs hbs _ _ _ _ hout
      exact h4 j (by omega)

variable {c : Parties bytes N} {prng : List (BitVec 8) → ℕ → BitVec 8} {seed : List (BitVec 8)}

theorem Parties.Made.key (hc : c.ParamsOK) (h : c.Made prng seed) (i : ℕ) (hi : i < c.sp.P) (hg : c.given i) :
    IsCRS bytes N c.sp.gr.level (prng seed) (c.enc i).crs ∧
    (∀ j, (c.enc i).key j = kbit (8 * bytes) (c.boot.lk i j)) ∧
      ∀ b < c.sp.bc, AtMostOne (c.boot.lk i) (b * c.sp.bs) c.sp.bs := by
  have hw : 0 < 8 * bytes := by have := hc.bytes_ok; omega
  have hk : IsCRS bytes N c.sp.gr.level (prng seed) (c.enc i).crs ∧
      ∃ words rest, genSecretKey (c.sp.bs * c.sp.bc) N c.sp.bs words = .ok (c.enc i).key rest := by
    rcases h.enc i hi hg with ⟨words, rest, h1⟩ | ⟨kwords, krest, key, words, h1, h2⟩
    · have := C74_crs prng N c.sp i seed words hc.bytes_ok _ _ h1
      exact ⟨this.1, words, rest, this.2.1⟩
    · have := C74_crs_withKey prng N c.sp i seed words hc.bytes_ok key _ h2
      exact ⟨this.1, kwords, krest, by rw [this.2.1]; exact h1⟩
  obtain ⟨h1, words, rest, h2⟩ := hk
  obtain ⟨lk, h3, h4⟩ := C41_genSecretKey hw c.sp.bs c.sp.bc N hc.bs_lt hc.bs_ok hc.dim_ok words rest _ h2
  refine ⟨h1, fun j => ?_, fun b hb j j' hj hj' e1 e2 => ?_⟩
  · show _ = kbit (8 * bytes) (decide _)
    rcases Nat.lt_or_ge j N with hj | hj
    · rw [h3 j hj, decide_kbit hw]
    · rw [genSecretKey_frame _ _ _ hc.bs_lt hc.dim_ok _ _ _ h2 j hj, decide_eq_false (bv_zero_ne_one hw)]
      rfl
  · have hlt : ∀ j < c.sp.bs, b * c.sp.bs + j < N := by
      intro j hj
      have : (b + 1) * c.sp.bs ≤ c.sp.bc * c.sp.bs := Nat.mul_le_mul_right _ hb
      have h5 := hc.dim_ok
      rw [mul_comm] at h5
      rw [add_mul, one_mul] at this
      omega
    refine h4 b hb j j' hj hj' ?_ ?_
    · have : decide _ = true := e1
      rwa [h3 _ (hlt j hj), decide_kbit hw] at this
    · have : decide _ = true := e2
      rwa [h3 _ (hlt j' hj'), decide_kbit hw] at this

/-- What `GenEvalKey` returns, with `auxKey` made of bits. -/
theorem genEvalKey_ok {w : ℕ} {sp : SetupParams w} {e : Enc w} {r : KeyRand w N (sp.bs * sp.bc)} {k rest}
    (h : genEvalKey N sp e r = .ok k rest) : ∃ aux : ℕ → BitVec w, (∃ b : ℕ → Bool, ∀ j < N, aux j = kbit w (b j)) ∧
      k = {
        brk := fun j => genBlindRotateKeyElem sp.gbr (fun _ : Fin 1 => glweKey0 N e.key) (r.brMask j) (r.brErr j)
          (r.brNoise j) (e.key j)
        ksk := fun j => encryptLevScalar sp.gks (fun t => e.key t) (r.ksMask j) (r.ksNoise j) (e.key (sp.bs * sp.bc + j))
        prod := {
          crs := genCRSPublicKey (crsPoly N e.crs) (glweKey0 N e.key) r.crsNoise r.crsErr
          relin := uniEncryptPoly (fun j => Poly.C N (sp.gr.baseQ j)) (crsPoly N e.crs) (glweKey0 N e.key) (glweKey0 N aux)
            r.err0 r.noise0 r.mask1 r.err1 r.noise1 (glweKey0 N e.key) } } := by
  unfold genEvalKey at h
  split at h
  · simp at h
  · split at h
    · simp at h
    · rename_i aux rest' hs
      simp only [Outcome.ok.injEq] at h
      obtain ⟨-, -, h2, -⟩ := ok_sampleVec 0 N (fun _ => (0 : BitVec w)) aux e.words rest' (by rw [hs]; rfl)
      exact ⟨aux, ⟨_, fun j hj => by simpa using h2 j hj⟩, h.1.symm⟩

omit [NeZero N] in
theorem Parties.on_eq (c : Parties bytes N) (i : ℕ) : c.boot.on i = c.given i := by
  show (if c.given i then some _ else none).isSome = _
  cases c.given i <;> rfl

/-- **C74 (compatible keys).**  The keys of parties that shared only the seed are what multi-key bootstrapping needs. -/
theorem C74_compatible (hc : c.ParamsOK) (h : c.Made prng seed) : c.boot.Valid := by
  have hw : 0 < 8 * bytes := by have := hc.bytes_ok; omega
  have hz : ∀ i < c.sp.P, c.given i → glweKey0 N (c.enc i).key = zOf (8 * bytes) N c.boot.lk i := by
    intro i hi hg
    funext j
    exact (h.key hc i hi hg).2.1 j
  have hgiv : ∀ i, isOn c.boot.keys i = true → c.given i = true := fun i hi => by
    rw [← c.on_eq i]; exact hi
  exact {
    w1 := hw
    L := hc.N_ok
    p0 := hc.p0
    pw := hc.pw
    p52 := hc.p52
    pL := hc.pL
    scale := hc.scale
    rot := {
      gacc_ok := hc.gacc_ok
      gbr_ok := hc.gbr_ok
      gr_ok := hc.gr_ok
      bs_ok := hc.bs_ok
      bc_ok := hc.bc_ok
      key_ok := fun i hi hg => (h.key hc i hi (hgiv i hg)).2.2
      brk_ok := fun i hi hg => by
        obtain ⟨r, rest, hr, h1⟩ := h.evk i hi (hgiv i hg)
        obtain ⟨aux, -, h2⟩ := genEvalKey_ok h1
        refine ⟨r.brMask, r.brErr, r.brNoise, hr.br, ?_⟩
        show (c.evk i).brk = _
        rw [h2]
        funext j
        show genBlindRotateKeyElem _ (fun _ : Fin 1 => glweKey0 N (c.enc i).key) _ _ _ _ = _
        rw [hz i hi (hgiv i hg), (h.key hc i hi (hgiv i hg)).2.1 j]
        rfl
      crs_ok := by
        obtain ⟨l, -, -, hl⟩ := sampleCRS_new (prng seed) bytes N c.sp.gr.level hc.bytes_ok
        refine ⟨crsPoly N l, fun i hi k hk => ?_⟩
        have hk' : (if c.given i then some (c.evk i).prod else none) = some k := hk
        split at hk'
        · rename_i hg
          rw [Option.some.injEq] at hk'
          obtain ⟨r, rest, hr, h1⟩ := h.evk i hi hg
          obtain ⟨aux, ⟨b, hb⟩, h2⟩ := genEvalKey_ok h1
          have e1 := isCRS_unique (h.key hc i hi hg).1 hl
          rw [h2] at hk'
          subst hk'
          refine ⟨⟨r.crsNoise, r.crsErr, hr.crs, ?_⟩, ⟨b, r.err0, r.noise0, r.mask1, r.err1, r.noise1, hr.n0, hr.n1, ?_⟩⟩
          · show genCRSPublicKey _ _ _ _ = _
            rw [e1, hz i hi hg]
          · show uniEncryptPoly _ _ _ _ _ _ _ _ _ _ = _
            rw [e1, hz i hi hg, show glweKey0 N aux = zOf (8 * bytes) N (fun _ => b) 0 from funext fun j => hb j j.2]
            rfl
        · cases hk' }
    sw := {
      gks_ok := hc.gks_ok
      dim_ok := hc.dim_ok
      on_ok := fun i _ => by
        rw [c.on_eq i]
        show (if c.given i then some _ else none).isSome = _
        cases c.given i <;> rfl
      ksk_ok := fun i hi k hk => by
        have hk' : (if c.given i then some (c.evk i).ksk else none) = some k := hk
        split at hk'
        · rename_i hg
          have hk' : (c.evk i).ksk = k := Option.some.inj hk'
          obtain ⟨r, rest, hr, h1⟩ := h.evk i hi hg
          obtain ⟨aux, -, h2⟩ := genEvalKey_ok h1
          refine ⟨r.ksMask, r.ksNoise, hr.ks, ?_⟩
          rw [← hk', h2]
          funext j
          show encryptLevScalar _ (fun t => (c.enc i).key t) _ _ _ = _
          have e : (fun t : Fin (c.sp.bs * c.sp.bc) => (c.enc i).key t)
              = lweKeyOf (8 * bytes) (c.sp.bs * c.sp.bc) (c.boot.lk i) :=
            funext fun t => (h.key hc i hi hg).2.1 t
          rw [e, (h.key hc i hi hg).2.1]
          rfl
        · cases hk' } }

/-- What a decryptor holds that was given the keys of the parties of the evaluator: the secret keys of their encryptors, of the
dimension of ciphertexts. -/
def Parties.held (c : Parties bytes N) (order : BootstrapOrder) :
    ℕ → Option (Fin (c.boot.ctDim order) → BitVec (8 * bytes)) :=
  fun i => if c.given i then some fun t => (c.enc i).key t else none

theorem Parties.held_eq (hc : c.ParamsOK) (h : c.Made prng seed) (order : BootstrapOrder) (i : ℕ) (hi : i < c.sp.P) :
    c.held order i = c.boot.held order i := by
  unfold Parties.held MBoot.held
  rw [c.on_eq i]
  cases hg : c.given i
  · rfl
  · simp only [if_true, Option.some.injEq]
    funext t
    exact (h.key hc i hi hg).2.1 t

theorem Parties.held_holds (hc : c.ParamsOK) (h : c.Made prng seed) (order : BootstrapOrder)
    {d : Decryptor (Fin (c.boot.ctDim order) → BitVec (8 * bytes))} (hd : Holds c.sp.P d (c.held order)) :
    Holds c.sp.P d (c.boot.held order) where
  len := hd.len
  on := fun i hi => by rw [← Parties.held_eq hc h order i hi]; exact hd.on i hi
  sub := fun i hi t ht => hd.sub i hi t (by rw [Parties.held_eq hc h order i hi]; exact ht)

/-- **C74 (end to end).**  Parties that shared only a seed made their keys; an evaluator that got the evaluation keys of some of
them bootstraps a ciphertext that decrypts to `m` to one that decrypts to `f(m)`. -/
theorem C74_decrypts (hc : c.ParamsOK) (h : c.Made prng seed) (order : BootstrapOrder) (x : MBoot.Bufs (8 * bytes) N)
    (hx : c.boot.BufsOK x) (raw : List (BitVec (8 * bytes))) (hraw : raw.length = N) (out ct : ℕ → BitVec (8 * bytes))
    (f : ℕ → BitVec 64) (message : BitVec 64) (e : BitVec (8 * bytes))
    {d : Decryptor (Fin (c.boot.ctDim order) → BitVec (8 * bytes))} (hd : Holds c.sp.P d (c.held order))
    (hct : decryptLWEPhase d ct = some (encodeLWECustom message c.p c.s + e))
    (hcond : (c.boot.inNoise order (wabs e) : ℚ) * (2 * N) / 2 ^ (8 * bytes) + c.boot.roundErr
      + N * |(2 : ℚ) ^ (8 * bytes) - 2 * c.p.toNat * c.s.toNat| / 2 ^ (8 * bytes) + 1 ≤ N / (2 * c.p.toNat))
    (hout : (c.boot.outNoise order : ℚ) + c.p.toNat + 2 ^ (8 * bytes) / 2 ^ 50 < (c.s.toNat : ℚ) / 2) :
    ∃ res φ, c.boot.run order x raw out ct f = some res ∧ decryptLWEPhase d res = some φ ∧
      decodeLWECustom φ c.p c.s
        = some ((((f ((message.setWidth (8 * bytes)).toNat % c.p.toNat)).setWidth (8 * bytes)).toNat % c.p.toNat : ℕ) : ℤ) := by
  have hd' := Parties.held_holds hc h order hd
  obtain ⟨res, φ, h1, h2, -, h3⟩ := C34_decrypts c.boot order (C74_compatible hc h) x hx raw hraw out ct f message e hd' hd'
    (fun _ _ _ => rfl) hct hcond hout
  exact ⟨res, φ, h1, h2, h3⟩

/-- **C74 (gates).**  The same for gates on bits. -/
theorem C74_gate (hc : c.ParamsOK) (h : c.Made prng seed) (g : Gate) (order : BootstrapOrder) (x : MBoot.Bufs (8 * bytes) N)
    (hx : c.boot.BufsOK x) (out ct0 ct1 : ℕ) (m : Mem (BitVec (8 * bytes))) (b0 b1 : Bool) (E0 E1 : ℕ)
    (h0 : EncBit (c.boot.key order) (ctOf (c.sp.P * c.boot.ctDim order) m ct0) b0 E0)
    (h1 : EncBit (c.boot.key order) (ctOf (c.sp.P * c.boot.ctDim order) m ct1) b1 E1)
    (hE0 : E0 < 2 ^ (8 * bytes - 3)) (hE1 : E1 < 2 ^ (8 * bytes - 3))
    {d : Decryptor (Fin (c.boot.ctDim order) → BitVec (8 * bytes))} (hd : Holds c.sp.P d (c.held order))
    (hcond : g.gain * (E0 + E1) * (2 * N) / 2 ^ (8 * bytes) + c.boot.indexErr order < margin g * N)
    (hout : c.boot.outNoise order < 2 ^ (8 * bytes - 3)) :
    ∃ m' y0 y1, c.boot.gate g order x out ct0 ct1 m = some m' ∧
      (decryptLWEPhase d (m ct0)).map decodeLWEBool = some y0 ∧ (decryptLWEPhase d (m ct1)).map decodeLWEBool = some y1 ∧
      (decryptLWEPhase d (m' out)).map decodeLWEBool = some (g.eval y0 y1) :=
  C34_gate_decrypts c.boot g order (by have := hc.bytes_ok; omega) (C74_compatible hc h).toKeyValid x hx out ct0 ct1 m b0 b1 E0 E1
    h0 h1 hE0 hE1 (Parties.held_holds hc h order hd) hcond hout
end

/-! ### The seed must be shared -/

section
/-- Two parties, degree 1, base 256 with 4 digits in 32-bit words. -/
def exSp : SetupParams (8 * 4) := ⟨2, 1, 1, ⟨256, 8, 4⟩, ⟨256, 8, 4⟩, ⟨256, 8, 4⟩⟩

/-- A stream cipher: for the seed `[0]` it gives zeros, for others the word `2 ^ 31` again and again. -/
def exPrng (seed : List (BitVec 8)) (i : ℕ) : BitVec 8 := if seed = [0] then 0 else if i % 4 = 3 then 0x80 else 0

/-- No noise, masks zero. -/
def exZero (w N n : ℕ) : KeyRand w N n := ⟨0, 0, 0, 0, 0, 0, 0, 0, 0, 0, 0, 0⟩

def exOk {α : Type} : Outcome 64 α → Option α
  | .ok a _ => some a
  | _ => none

/-- The phase of the product of the ciphertext `(0, 0, 2^24)` of party 1 with the relinearization key of party 0, when all key bits
are 1, there is no noise, and the parties used the seeds `s0` and `s1`. -/
def exSeeds (s0 s1 : List (BitVec 8)) : Option (BitVec 32) := do
  let e0 ← exOk (setupEncryptor exPrng 1 exSp 0 s0 [1, 1])
  let e1 ← exOk (setupEncryptor exPrng 1 exSp 1 s1 [1, 1])
  let k0 ← exOk (genEvalKey 1 exSp e0 (exZero _ 1 _))
  let k1 ← exOk (genEvalKey 1 exSp e1 (exZero _ 1 _))
  let keys := evalKeys 1 (fun _ => true) fun i => if i = 0 then k0 else k1
  let c : ℕ → Poly 1 (BitVec 32) := fun t => if t = 2 then fun _ => 0x1000000 else 0
  let m ← hybridProdTo 2 keys 0 (polyGadget 1 exSp.gr) k0.prod.relin c 0 0 0 0 (fun _ _ => 0)
  some (m 0 0 0 + m 0 1 0 * e0.key 0 + m 0 2 0 * e1.key 0)

/-- **C74 (the seed must be shared).**  The product of `1` and `2^24` is right when the parties used the same seed, and off by half
the torus when they did not; no call reports this. -/
theorem C74_seed_needed : exSeeds [7] [7] = some 0x1000000 ∧ exSeeds [0] [0] = some 0x1000000 ∧
    exSeeds [0] [7] = some 0x81000000 := by
  decide +kernel

/-- Three parties, of which the evaluator knows two, with 64-bit words, degree 64, blocks of one bit and LWE dimension 2: for every
stream cipher, seed, and raw words of the parties, the calls return, and the hypotheses of `C74_decrypts` hold. -/
example (prng : List (BitVec 8) → ℕ → BitVec 8) (seed : List (BitVec 8)) (raw : ℕ → ℕ → BitVec 64) :
    ∃ c : Parties 8 64, c.ParamsOK ∧ c.Made prng seed ∧ c.sp.P = 3 ∧ (∀ i, c.given i = (i != 1)) ∧
      ∀ i < 3, ∀ j < 64, (c.enc i).key j = kbit 64 ((raw i 0).getLsbD j) := by
  let sp : SetupParams (8 * 8) := ⟨3, 1, 2, exG, exG, exG⟩
  have he : ∀ i : ℕ, ∃ e : Enc (8 * 8), i < 3 → (setupEncryptor prng 64 sp i seed [raw i 0, raw i 1] = .ok e [raw i 1] ∧
      ∀ j < 64, e.key j = kbit 64 ((raw i 0).getLsbD j)) := by
    intro i
    obtain ⟨l, s', h1, h2⟩ := sampleCRS_new (prng seed) 8 64 sp.gr.level (Or.inr rfl)
    obtain ⟨key, h3, h4, -⟩ := C41_bits 0 64 (fun _ => (0 : BitVec (8 * 8))) [raw i 0, raw i 1] (by simp [bitWords])
    have hk : genSecretKey (sp.bs * sp.bc) 64 sp.bs [raw i 0, raw i 1] = .ok key [raw i 1] := by
      unfold genSecretKey
      rw [if_pos (show ((1 : ℕ) : ℤ) = 1 from rfl), h3]
      rfl
    refine ⟨⟨i, l, key, [raw i 1]⟩, fun hi => ⟨?_, fun j hj => ?_⟩⟩
    · unfold setupEncryptor newEncryptor
      rw [if_neg (by show ¬ ((i : ℤ) > ((3 : ℕ) : ℤ)); omega)]
      simp only [h1]
      rw [hk]
    · have := h4 j hj
      rwa [zero_add, Nat.div_eq_of_lt hj, Nat.mod_eq_of_lt hj] at this
  choose e he using he
  have hv : ∀ i : ℕ, ∃ k, i < 3 → genEvalKey 64 sp (e i) (exZero _ 64 _) = .ok k [] := by
    intro i
    obtain ⟨aux, h3, -⟩ := C41_bits 0 64 (fun _ => (0 : BitVec (8 * 8))) [raw i 1] (by simp [bitWords])
    by_cases hi : i < 3
    · have h1 := (C74_crs prng 64 sp i seed _ (Or.inr rfl) _ _ (he i hi).1)
      have h2 : ∃ k, genEvalKey 64 sp (e i) (exZero _ 64 _) = .ok k [] := by
        unfold genEvalKey
        rw [if_neg (by rw [h1.1.1]; exact lt_irrefl _), h1.2.2.1, h3]
        exact ⟨_, rfl⟩
      exact h2.imp fun k hk _ => hk
    · exact ⟨⟨0, 0, ⟨0, ⟨0, 0⟩⟩⟩, fun h => absurd h hi⟩
  choose k hk using hv
  refine ⟨⟨sp, exG, 2#64, 0x4000000000000000#64, e, k, fun i => i != 1, 0, 0, 0, 0, 0, 0, 0⟩, ?_, ?_, rfl, fun _ => rfl,
    fun i hi => (he i hi).2⟩
  · have hG : exG.Valid := by constructor <;> decide
    exact ⟨Or.inr rfl, hG, hG, hG, hG, Nat.one_pos, show 1 < 2 ^ 63 by norm_num, Nat.two_pos, show 1 * 2 ≤ 64 by norm_num,
      by norm_num, show 2#64 ≠ 0 by decide, show 2 * 2 < 2 ^ 64 by norm_num, show 2 ≤ 2 ^ 52 by norm_num,
      show 2 * 64 ≤ 2 ^ 51 by norm_num, show compileScale 64 2 = some 0x4000000000000000 by decide +kernel⟩
  · have h0 : pabs (0 : Poly 64 (BitVec (8 * 8))) ≤ 0 := ((polyNorm 64 (8 * 8)).zero).le
    refine ⟨fun i hi _ => Or.inl ⟨_, _, (he i hi).1⟩, fun i hi _ => ⟨exZero _ 64 _, [], ?_, hk i hi⟩⟩
    constructor <;> intros <;> simp only [exZero, Pi.zero_apply, sub_zero, add_zero, sum_const_zero, wabs_zero, le_refl] <;>
      exact h0
end
end Tfhe.Mk
