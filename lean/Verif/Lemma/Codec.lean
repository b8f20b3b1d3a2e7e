import Verif.Lemma.Marshal

/-! # Each type's `WriteTo` and `ReadFrom` fit together -/
namespace Tfhe.Ser

variable {w v : ℕ} {mem : ℕ}

/-- What is written has the announced size and is read back. -/
def Codec {α : Type} (write : Option Wr) (size : Option ℕ) (read : Reader α) (x : α) : Prop :=
  ∃ b, write = some ⟨b, false⟩ ∧ size = some b.length ∧ Rt read b x

theorem Codec.roundTrips {α : Type} {write : Option Wr} {size : Option ℕ} {read : Reader α} {x : α}
    (h : Codec write size read x) : RoundTrips write size read x := by
  obtain ⟨b, h1, h2, h3⟩ := h
  exact ⟨b, h1, h2, h3.ok⟩

theorem Codec.detects {α : Type} {write : Option Wr} {size : Option ℕ} {read : Reader α} {x : α}
    (h : Codec write size read x) : DetectsTruncation write read := by
  obtain ⟨b, h1, _, h3⟩ := h
  exact ⟨b, h1, h3.trunc⟩

/-- Header then value. -/
theorem Codec.finish {α : Type} {h b : Bytes} {ho bo : Option Bytes} {so : Option ℕ}
    {read : Reader α} {x : α} (hh : ho = some h) (hb : bo = some b)
    (hs : so = some (h ++ b).length) (hr : Rt read (h ++ b) x) :
    Codec (finish ho bo so) so read x :=
  ⟨h ++ b, finish_eq hh hb hs, hs, hr⟩

theorem codec_gadget (hw : w ≤ 64) {g : GadgetParams w} (hg : Compiled mem g) :
    Codec (gadgetWriteTo g) (some 16) gadgetReadFrom g := by
  refine Codec.finish rfl rfl (by simp [putU64_length, putLen_length]) ?_
  exact Rt.bind (Rt.readU64 _) (Rt.bind_lift (f := fun level =>
    GadgetLit.compile { base := (g.base.setWidth 64).setWidth w, level := level })
    (Rt.readU64 _) (hg.compile hw))

theorem codec_lwePT (hv : 8 ∣ v) (x : BitVec v) :
    Codec (lwePTWriteTo x) (some (v / 8)) lwePTReadFrom x := by
  refine Codec.finish rfl rfl (by simp [vecWriteTo_length]) ?_
  have h := Rt.bind_lift (f := List.head?) (c := x)
    (Rt.vecReadFrom hv (n := 1) (a := 0) (x := [x]) rfl) rfl
  exact h

theorem codec_lweCT (hv : 8 ∣ v) (hm : mem < 2 ^ 63) {x : List (BitVec v)} (hx : x.length ≤ mem) :
    Codec (lweCTWriteTo x) (lweCTByteSize x) (lweCTReadFrom mem) x := by
  refine Codec.finish rfl rfl
    (by simp [lweCTByteSize, putLenPred_length, vecWriteTo_length]) ?_
  refine Rt.bind (a := List.replicate x.length 0) ?_ (Rt.vecReadFrom hv rfl)
  exact Rt.bind_lift (f := newLWECiphertext mem) (Rt.readU64 _)
    (by rw [newLWECiphertext, pred_succ, mkSlice_ofNat hm hx])

theorem codec_glwePT (hv : 8 ∣ v) (hm : mem < 2 ^ 63) {x : List (BitVec v)}
    (hx : RankOK mem x.length) :
    Codec (glwePTWriteTo x) (some (8 + x.length * (v / 8))) (glwePTReadFrom mem) x := by
  refine Codec.finish rfl rfl (by simp [putLen_length, vecWriteTo_length]) ?_
  refine Rt.bind (a := List.replicate x.length 0) ?_ (Rt.vecReadFrom hv rfl)
  exact Rt.bind_lift (f := newPoly mem) (Rt.readU64 _) (newPoly_ofNat hm hx)

theorem Rt.polysValueRead (hv : 8 ∣ v) {k N : ℕ} (hk : 0 < k) {x : List (List (BitVec v))}
    (h : Polys k N x) :
    Rt (polysValueRead (List.replicate k (List.replicate N (0 : BitVec v)))) (encPolys x) x :=
  Rt.lift_bind (rank0_replicate hk) (Rt.polys hv h rfl)

theorem polysValue_eq {k N : ℕ} (hk : 0 < k) {x : List (List (BitVec v))} (h : Polys k N x) :
    polysValue x = some (encPolys x) := by
  rw [polysValue, rank0_polys h hk, Option.bind_some, writeVecs_eq h.rank (zeroBuf_length _)]
  rfl

theorem polysByteSize_eq {k N : ℕ} (hk : 0 < k) {x : List (List (BitVec v))} (h : Polys k N x) :
    polysByteSize x = some (16 + k * (N * (v / 8))) := by
  rw [polysByteSize, rank0_polys h hk, h.length, Option.map_some, mul_assoc]

theorem codec_glweSK (hv : 8 ∣ v) (hm : mem < 2 ^ 63) {k N : ℕ} (hk : 0 < k) (hkm : k ≤ mem)
    (hN : RankOK mem N) {x : List (List (BitVec v))} (h : Polys k N x) :
    Codec (glweSKWriteTo x) (polysByteSize x) (glweSKReadFrom mem) x := by
  refine Codec.finish (h := putLen k ++ putLen N) (by rw [glweSKHeader, rank0_polys h hk, h.length]; rfl)
    (polysValue_eq hk h)
    (by rw [polysByteSize_eq hk h]; simp [putLen_length, encPolys_length h]; ring) ?_
  refine Rt.bind (Rt.bind (Rt.readU64 _) (Rt.bind_lift (f := newGLWESecretKey mem _) (Rt.readU64 _)
    (makeEach_ofNat hm hkm (newPoly_ofNat hm hN)))) (Rt.polysValueRead hv hk h)

theorem codec_fftGLWESK (hm : mem < 2 ^ 63) {k N : ℕ} (hk : 0 < k) (hkm : k ≤ mem)
    (hN : RankOK mem N) {x : List (List (BitVec 64))} (h : Polys k N x) :
    Codec (glweSKWriteTo x) (polysByteSize x) (fftGLWESKReadFrom mem) x := by
  refine Codec.finish (h := putLen k ++ putLen N) (by rw [glweSKHeader, rank0_polys h hk, h.length]; rfl)
    (polysValue_eq hk h)
    (by rw [polysByteSize_eq hk h]; simp [putLen_length, encPolys_length h]; ring) ?_
  refine Rt.bind (Rt.bindForget (Rt.readU64 _) (Rt.bind_lift (f := newGLWESecretKey mem _)
    (Rt.readU64 _) (makeEach_ofNat hm hkm (newPoly_ofNat hm hN))))
    (Rt.polysValueRead (by norm_num) hk h)

theorem codec_glweCT (hv : 8 ∣ v) (hm : mem < 2 ^ 63) {k N : ℕ} (hk : 0 < k) (hkm : k ≤ mem)
    (hN : RankOK mem N) {x : List (List (BitVec v))} (h : Polys k N x) :
    Codec (glweCTWriteTo x) (polysByteSize x) (glweCTReadFrom mem) x := by
  refine Codec.finish (h := putLenPred k ++ putLen N)
    (by rw [glweCTHeader, rank0_polys h hk, h.length]; rfl) (polysValue_eq hk h)
    (by rw [polysByteSize_eq hk h]; simp [putLen_length, putLenPred_length, encPolys_length h]; ring) ?_
  refine Rt.bind (Rt.bind (Rt.readU64 _) (Rt.bind_lift (f := newGLWECiphertext mem _) (Rt.readU64 _)
    (newGLWECiphertext_ofNat hm hkm hN))) (Rt.polysValueRead hv hk h)

theorem codec_fftGLWECT (hm : mem < 2 ^ 63) {k N : ℕ} (hk : 0 < k) (hkm : k ≤ mem)
    (hN : RankOK mem N) {x : List (List (BitVec 64))} (h : Polys k N x) :
    Codec (glweCTWriteTo x) (polysByteSize x) (fftGLWECTReadFrom mem) x := by
  refine Codec.finish (h := putLenPred k ++ putLen N)
    (by rw [glweCTHeader, rank0_polys h hk, h.length]; rfl) (polysValue_eq hk h)
    (by rw [polysByteSize_eq hk h]; simp [putLen_length, putLenPred_length, encPolys_length h]; ring) ?_
  refine Rt.bind (Rt.bindForget (Rt.readU64 _) (Rt.bind_lift (f := newGLWECiphertext mem _)
    (Rt.readU64 _) (newGLWECiphertext_ofNat hm hkm hN))) (Rt.polysValueRead (by norm_num) hk h)

/-! ## Public keys -/

theorem pk_rank {k N : ℕ} (hk : 0 < k) {x : List (List (List (BitVec v)))} (h : IsPKShape k N x) :
    x.head?.bind rank0 = some N := by
  cases x with
  | nil => have := h.length; simp at this; omega
  | cons ct x => exact rank0_polys (h.entry ct (by simp)) (by omega)

theorem codec_pk (hv : 8 ∣ v) (hm : mem < 2 ^ 63) {k N : ℕ} (hk : 0 < k) (hkm : k + 1 ≤ mem)
    (hN : RankOK mem N) {x : List (List (List (BitVec v)))} (h : IsPKShape k N x) :
    Codec (pkWriteTo x) (pkByteSize x) (pkReadFrom mem) x := by
  refine Codec.finish (h := putLen k ++ putLen N) (b := x.flatMap encPolys)
    (by rw [pkHeader, pk_rank hk h, h.length]; rfl) ?_ ?_ ?_
  · rw [pkValue, pk_rank hk h, Option.bind_some, writeVecs_eq (n := N) ?_ (zeroBuf_length _),
      List.flatMap_assoc]
    · rfl
    · intro p hp
      obtain ⟨ct, hct, hp⟩ := List.mem_flatMap.1 hp
      exact (h.entry ct hct).rank p hp
  · rw [pkByteSize, pk_rank hk h, List.length_append, flatMap_length_const
      (fun ct hct => encPolys_length (h.entry ct hct)), h.length]
    simp only [Option.map_some, List.length_append, putLen_length, Option.some.injEq]
    ring
  · have hz : newGLWECiphertext mem (BitVec.ofNat 64 k) (BitVec.ofNat 64 N)
        = some (List.replicate (k + 1) (List.replicate N (0 : BitVec v))) := by
      have := newGLWECiphertext_ofNat (v := v) hm hkm hN
      rwa [show BitVec.ofNat 64 (k + 1) - 1 = BitVec.ofNat 64 k by
        rw [BitVec.ofNat_add]; exact BitVec.add_sub_cancel _ _] at this
    refine Rt.bind (Rt.bind (Rt.readU64 _) (Rt.bind_lift (f := newPublicKey mem _) (Rt.readU64 _)
      (makeEach_ofNat hm (by omega) hz))) ?_
    refine Rt.lift_bind (a := N) ?_ (Rt.readEach h.length fun ct hct =>
      Rt.polys hv (h.entry ct hct) rfl)
    obtain ⟨j, rfl⟩ : ∃ j, k = j + 1 := ⟨k - 1, by omega⟩
    exact rank0_replicate (by omega)

/-! ## Gadget ciphertexts -/

theorem lev_rank {g : GadgetParams w} (hg : Compiled mem g) {n : ℕ} {x : Lev w}
    (h : IsLevShape g n x) : rank0 x.value = some n := by
  have h1 : Polys g.level n x.value := ⟨h.length, h.entry⟩
  exact rank0_polys h1 hg.pos

theorem codec_lev (hw8 : 8 ∣ w) (hw : w ≤ 64) (hm : mem < 2 ^ 63) {g : GadgetParams w}
    (hg : Compiled mem g) {n : ℕ} (hn : n ≤ mem) {x : Lev w} (h : IsLevShape g n x) :
    Codec (levWriteTo x) (levByteSize x) (levReadFrom mem) x := by
  refine Codec.finish
    (h := putU64 (g.base.setWidth 64) ++ putLen g.level ++ putLenPred n) (b := encLev x) ?_ ?_ ?_ ?_
  · rw [levHeader, lev_rank hg h, h.length, h.gadget]; rfl
  · rw [levValue, lev_rank hg h, Option.bind_some, writeVecs_eq h.entry (zeroBuf_length _)]; rfl
  · rw [levByteSize, lev_rank hg h, List.length_append, encLev_length h, h.length]
    simp only [Option.map_some, List.length_append, putU64_length, putLen_length, putLenPred_length,
      Option.some.injEq]
    ring
  · refine Rt.bind (a := ⟨g, List.replicate g.level (List.replicate n 0)⟩) ?_ ?_
    · rw [List.append_assoc]
      exact Rt.bind (Rt.readU64 _) (Rt.bind (Rt.readU64 _) (Rt.bind_lift (f := fun n =>
        (GadgetLit.compile { base := (g.base.setWidth 64).setWidth w,
                             level := BitVec.ofNat 64 g.level }).bind (newLev mem n))
        (Rt.readU64 _) (by rw [hg.compile hw, Option.bind_some, newLev_ofNat hm hn hg])))
    · exact Rt.lift_bind (rank0_replicate hg.pos) (Rt.lev hw8 h rfl)

theorem newGSW_ofNat (hm : mem < 2 ^ 63) {n : ℕ} (hn : n ≤ mem) {g : GadgetParams w}
    (hg : Compiled mem g) : newGSW mem (BitVec.ofNat 64 n - 1) g = some (zeroLevs g n n) := by
  rw [newGSW, pred_succ, makeEach_ofNat hm hn (newLev_ofNat hm hn hg)]
  rfl

theorem levs_head {g : GadgetParams w} {m n : ℕ} (hm : 0 < m) {x : GSW w} (h : IsLevs g m n x) :
    ∃ row, x.value.head? = some row ∧ IsLevShape g n row := by
  obtain ⟨gd, val⟩ := x
  cases val with
  | nil => have := h.length; simp at this; omega
  | cons row l => exact ⟨row, rfl, h.entry row (by simp)⟩

theorem levs_entries {g : GadgetParams w} {m n : ℕ} {x : GSW w} (h : IsLevs g m n x) :
    ∀ p ∈ x.value.flatMap (·.value), p.length = n := by
  intro p hp
  obtain ⟨row, hr, hp⟩ := List.mem_flatMap.1 hp
  exact (h.entry row hr).entry p hp

theorem codec_gsw (hw8 : 8 ∣ w) (hw : w ≤ 64) (hm : mem < 2 ^ 63) {g : GadgetParams w}
    (hg : Compiled mem g) {n : ℕ} (hn0 : 0 < n) (hn : n ≤ mem) {x : GSW w} (h : IsLevs g n n x) :
    Codec (gswWriteTo x) (gswByteSize x) (gswReadFrom mem) x := by
  obtain ⟨row, hrow, hshape⟩ := levs_head hn0 h
  refine Codec.finish
    (h := putU64 (g.base.setWidth 64) ++ putLen g.level ++ putLenPred n) (b := encLevs x)
    ?_ ?_ ?_ ?_
  · rw [gswHeader, hrow, h.length, h.gadget, Option.map_some, hshape.length]
  · rw [gswValue, h.length, writeVecs_eq (levs_entries h) (zeroBuf_length _), List.flatMap_assoc]
    rfl
  · rw [gswByteSize, hrow, List.length_append, encLevs_length h, h.length, Option.map_some,
      hshape.length]
    simp only [List.length_append, putU64_length, putLen_length, putLenPred_length,
      Option.some.injEq]
    ring
  · refine Rt.bind (a := zeroLevs g n n) ?_ ?_
    · rw [List.append_assoc]
      exact Rt.bind (Rt.readU64 _) (Rt.bind (Rt.readU64 _) (Rt.bind_lift (f := fun n =>
        (GadgetLit.compile { base := (g.base.setWidth 64).setWidth w,
                             level := BitVec.ofNat 64 g.level }).bind (newGSW mem n))
        (Rt.readU64 _) (by rw [hg.compile hw, Option.bind_some, newGSW_ofNat hm hn hg])))
    · exact Rt.levs hw8 h (by simp [zeroLevs])

theorem glev_head {g : GadgetParams w} (hl : 0 < g.level) {k N : ℕ} {x : GLev w v}
    (h : IsGLevShape g k N x) : ∃ ct, x.value.head? = some ct ∧ Polys k N ct := by
  obtain ⟨gd, val⟩ := x
  cases val with
  | nil => have := h.length; simp at this; omega
  | cons row l => exact ⟨row, rfl, h.entry row (by simp)⟩

theorem codec_glev (hw : w ≤ 64) (hv : 8 ∣ v) (hm : mem < 2 ^ 63) {g : GadgetParams w}
    (hg : Compiled mem g) {k N : ℕ} (hk0 : 0 < k) (hk : k ≤ mem) (hN : RankOK mem N)
    {x : GLev w v} (h : IsGLevShape g k N x) :
    Codec (glevWriteTo x) (glevByteSize x) (glevReadFrom mem) x := by
  obtain ⟨ct, hct, hshape⟩ := glev_head hg.pos h
  have hr := GLev.rank_eq h hg.pos hk0
  refine Codec.finish
    (h := putU64 (g.base.setWidth 64) ++ putLen g.level ++ putLenPred k ++ putLen N)
    (b := encGLev x) ?_ ?_ ?_ ?_
  · rw [glevHeader, hct, hr, h.length, h.gadget, Option.bind_some, hshape.length]; rfl
  · rw [glevValue, hr, Option.bind_some, writeVecs_eq (n := N) ?_ (zeroBuf_length _),
      List.flatMap_assoc]
    · rfl
    · intro p hp
      obtain ⟨c, hc, hp⟩ := List.mem_flatMap.1 hp
      exact (h.entry c hc).rank p hp
  · rw [glevByteSize, hct, hr, List.length_append, encGLev_length h, h.length, Option.bind_some,
      hshape.length]
    simp only [Option.map_some, List.length_append, putU64_length, putLen_length, putLenPred_length,
      Option.some.injEq]
    ring
  · refine Rt.bind (a := ⟨g, List.replicate g.level (List.replicate k (List.replicate N 0))⟩) ?_ ?_
    · rw [List.append_assoc, List.append_assoc]
      exact Rt.bind (Rt.readU64 _) (Rt.bind (Rt.readU64 _) (Rt.bind (Rt.readU64 _)
        (Rt.bind_lift (f := fun N =>
        (GadgetLit.compile { base := (g.base.setWidth 64).setWidth w,
                             level := BitVec.ofNat 64 g.level }).bind
            (newGLev mem (BitVec.ofNat 64 k - 1) N))
        (Rt.readU64 _) (by rw [hg.compile hw, Option.bind_some, newGLev_ofNat hm hk hN hg]))))
    · refine Rt.lift_bind (GLev.rank_eq ((zeroGLevs_shape g 1 k N).entry _ ?_) hg.pos hk0)
        (Rt.glev hv h rfl)
      simp [zeroGLevs]

theorem glevs_head {g : GadgetParams w} {m k N : ℕ} (hm : 0 < m) {x : GGSW w v}
    (h : IsGLevs g m k N x) : ∃ row, x.value.head? = some row ∧ IsGLevShape g k N row := by
  obtain ⟨gd, val⟩ := x
  cases val with
  | nil => have := h.length; simp at this; omega
  | cons row l => exact ⟨row, rfl, h.entry row (by simp)⟩

theorem ggswValue_eq {g : GadgetParams w} {m k N : ℕ} (hm : 0 < m) (hl : 0 < g.level) (hk : 0 < k)
    {x : GGSW w v} (h : IsGLevs g m k N x) : ggswValue x = some (encGGSW x) := by
  rw [ggswValue, GGSW.rank_eq h hm hl hk, Option.bind_some,
    writeVecs_eq (n := N) ?_ (zeroBuf_length _), List.flatMap_assoc]
  · simp only [List.flatMap_assoc]
    rfl
  · intro p hp
    obtain ⟨row, hr, hp⟩ := List.mem_flatMap.1 hp
    obtain ⟨c, hc, hp⟩ := List.mem_flatMap.1 hp
    exact ((h.entry row hr).entry c hc).rank p hp

theorem Rt.ggswValueRead (hv : 8 ∣ v) {g : GadgetParams w} {m k N : ℕ} (hm : 0 < m)
    (hl : 0 < g.level) (hk : 0 < k) {x : GGSW w v} (h : IsGLevs g m k N x) :
    Rt (ggswValueRead (zeroGLevs v g m k N)) (encGGSW x) x :=
  Rt.lift_bind (GGSW.rank_eq (zeroGLevs_shape g m k N) hm hl hk) (Rt.glevs hv h rfl)

theorem newGGSW_ofNat (hm : mem < 2 ^ 63) {k N : ℕ} (hk : k ≤ mem) (hN : RankOK mem N)
    {g : GadgetParams w} (hg : Compiled mem g) :
    newGGSW mem (BitVec.ofNat 64 k - 1) (BitVec.ofNat 64 N) g = some (zeroGLevs v g k k N) := by
  rw [newGGSW, pred_succ, makeEach_ofNat hm hk (newGLev_ofNat hm hk hN hg)]
  rfl

theorem codec_ggsw (hw : w ≤ 64) (hv : 8 ∣ v) (hm : mem < 2 ^ 63) {g : GadgetParams w}
    (hg : Compiled mem g) {k N : ℕ} (hk0 : 0 < k) (hk : k ≤ mem) (hN : RankOK mem N)
    {x : GGSW w v} (h : IsGLevs g k k N x) :
    Codec (ggswWriteTo x) (ggswByteSize x) (ggswReadFrom mem) x := by
  obtain ⟨row, hrow, hshape⟩ := glevs_head hk0 h
  have hr := GGSW.rank_eq h hk0 hg.pos hk0
  refine Codec.finish
    (h := putU64 (g.base.setWidth 64) ++ putLen g.level ++ putLenPred k ++ putLen N)
    (b := encGGSW x) ?_ (ggswValue_eq hk0 hg.pos hk0 h) ?_ ?_
  · rw [ggswHeader, hrow, hr, h.length, h.gadget, Option.bind_some, hshape.length]; rfl
  · rw [ggswByteSize, hrow, hr, List.length_append, encGGSW_length h, h.length, Option.bind_some,
      hshape.length]
    simp only [Option.map_some, List.length_append, putU64_length, putLen_length, putLenPred_length,
      Option.some.injEq]
    ring
  · refine Rt.bind (a := zeroGLevs v g k k N) ?_ (Rt.ggswValueRead hv hk0 hg.pos hk0 h)
    rw [List.append_assoc, List.append_assoc]
    exact Rt.bind (Rt.readU64 _) (Rt.bind (Rt.readU64 _) (Rt.bind (Rt.readU64 _)
      (Rt.bind_lift (f := fun N =>
      (GadgetLit.compile { base := (g.base.setWidth 64).setWidth w,
                           level := BitVec.ofNat 64 g.level }).bind
          (newGGSW mem (BitVec.ofNat 64 k - 1) N))
      (Rt.readU64 _) (by rw [hg.compile hw, Option.bind_some, newGGSW_ofNat hm hk hN hg]))))

/-! ## Key-switching and blind rotation keys -/

theorem codec_lweKSK (hw8 : 8 ∣ w) (hw : w ≤ 64) (hm : mem < 2 ^ 63) {g : GadgetParams w}
    (hg : Compiled mem g) {m n : ℕ} (hm0 : 0 < m) (hmm : m ≤ mem) (hn : n ≤ mem) {x : GSW w}
    (h : IsLevs g m n x) : Codec (lweKSKWriteTo x) (lweKSKByteSize x) (lweKSKReadFrom mem) x := by
  obtain ⟨row, hrow, hshape⟩ := levs_head hm0 h
  have hr := lev_rank hg hshape
  refine Codec.finish
    (h := putU64 (g.base.setWidth 64) ++ putLen g.level ++ putLen m ++ putLenPred n)
    (b := encLevs x) ?_ ?_ ?_ ?_
  · rw [lweKSKHeader, hrow, h.length, h.gadget, Option.bind_some, hr]; rfl
  · rw [lweKSKValue, hrow, Option.bind_some, hr, Option.bind_some,
      writeVecs_eq (levs_entries h) (zeroBuf_length _), List.flatMap_assoc]
    rfl
  · rw [lweKSKByteSize, hrow, List.length_append, encLevs_length h, h.length, Option.bind_some, hr,
      hshape.length]
    simp only [Option.map_some, List.length_append, putU64_length, putLen_length, putLenPred_length,
      Option.some.injEq]
    ring
  · refine Rt.bind (a := zeroLevs g m n) ?_ ?_
    · rw [List.append_assoc, List.append_assoc]
      refine Rt.bind (Rt.readU64 _) (Rt.bind (Rt.readU64 _) (Rt.bind (Rt.readU64 _)
        (Rt.bind_lift (f := fun n =>
        (GadgetLit.compile { base := (g.base.setWidth 64).setWidth w,
                             level := BitVec.ofNat 64 g.level }).bind
            (newLWEKSK mem (BitVec.ofNat 64 m) n))
        (Rt.readU64 _) ?_)))
      rw [hg.compile hw, Option.bind_some, newLWEKSK,
        makeEach_ofNat hm hmm (newLev_ofNat hm hn hg)]
      rfl
    · obtain ⟨z, hz, hzs⟩ := levs_head hm0 (zeroLevs_shape g m n)
      exact Rt.lift_bind (a := n) (by rw [hz, Option.bind_some, lev_rank hg hzs])
        (Rt.levs hw8 h rfl)

theorem codec_glweKSK (hw : w ≤ 64) (hm : mem < 2 ^ 63) {g : GadgetParams w}
    (hg : Compiled mem g) {m k N : ℕ} (hm0 : 0 < m) (hmm : m ≤ mem) (hk0 : 0 < k) (hk : k ≤ mem)
    (hN : RankOK mem N) {x : GGSW w 64} (h : IsGLevs g m k N x) :
    Codec (glweKSKWriteTo x) (glweKSKByteSize x) (glweKSKReadFrom mem) x := by
  obtain ⟨row, hrow, hshape⟩ := glevs_head hm0 h
  obtain ⟨ct, hct, hcs⟩ := glev_head hg.pos hshape
  have hr := GGSW.rank_eq h hm0 hg.pos hk0
  refine Codec.finish
    (h := putU64 (g.base.setWidth 64) ++ putLen g.level ++ putLen m ++ putLenPred k ++ putLen N)
    (b := encGGSW x) ?_ (ggswValue_eq hm0 hg.pos hk0 h) ?_ ?_
  · rw [glweKSKHeader, hrow, hr, h.length, h.gadget, Option.bind_some, hct, Option.bind_some,
      hcs.length]; rfl
  · rw [glweKSKByteSize, hrow, hr, List.length_append, encGGSW_length h, h.length, Option.bind_some,
      hshape.length, hct, Option.bind_some, hcs.length]
    simp only [Option.map_some, List.length_append, putU64_length, putLen_length, putLenPred_length,
      Option.some.injEq]
    ring
  · refine Rt.bind (a := zeroGLevs 64 g m k N) ?_
      (Rt.ggswValueRead (by norm_num) hm0 hg.pos hk0 h)
    rw [List.append_assoc, List.append_assoc, List.append_assoc]
    refine Rt.bind (Rt.readU64 _) (Rt.bind (Rt.readU64 _) (Rt.bind (Rt.readU64 _)
      (Rt.bind (Rt.readU64 _) (Rt.bind_lift (f := fun N =>
      (GadgetLit.compile { base := (g.base.setWidth 64).setWidth w,
                           level := BitVec.ofNat 64 g.level }).bind
          (newGLWEKSK mem (BitVec.ofNat 64 m) (BitVec.ofNat 64 k - 1) N))
      (Rt.readU64 _) ?_))))
    rw [hg.compile hw, Option.bind_some, newGLWEKSK,
      makeEach_ofNat hm hmm (newGLev_ofNat hm hk hN hg)]
    rfl

theorem brk_head {g : GadgetParams w} {n k N : ℕ} (hn : 0 < n) {x : BRK w}
    (h : IsBRKShape g n k N x) : ∃ gg, x.value.head? = some gg ∧ IsGLevs g k k N gg := by
  obtain ⟨gd, val⟩ := x
  cases val with
  | nil => have := h.length; simp at this; omega
  | cons row l => exact ⟨row, rfl, h.entry row (by simp)⟩

/-- The bytes of a blind rotation key. -/
def encBRK (x : BRK w) : Bytes := x.value.flatMap encGGSW

theorem codec_brk (hw : w ≤ 64) (hm : mem < 2 ^ 63) {g : GadgetParams w}
    (hg : Compiled mem g) {n k N : ℕ} (hn0 : 0 < n) (hn : n ≤ mem) (hk0 : 0 < k) (hk : k ≤ mem)
    (hN : RankOK mem N) {x : BRK w} (h : IsBRKShape g n k N x) :
    Codec (brkWriteTo x) (brkByteSize x) (brkReadFrom mem) x := by
  obtain ⟨gg, hgg, hgs⟩ := brk_head hn0 h
  obtain ⟨row, hrow, hshape⟩ := glevs_head hk0 hgs
  have hr := BRK.rank_eq h hn0 hg.pos hk0
  refine Codec.finish
    (h := putU64 (g.base.setWidth 64) ++ putLen g.level ++ putLen n ++ putLenPred k ++ putLen N)
    (b := encBRK x) ?_ ?_ ?_ ?_
  · rw [brkHeader, hgg, hr, h.length, h.gadget, Option.bind_some, hgs.length]; rfl
  · rw [brkValue, hr, Option.bind_some, writeVecs_eq (n := N) ?_ (by simp [zeroBuf]),
      List.flatMap_assoc]
    · simp only [List.flatMap_assoc]
      rfl
    · intro p hp
      obtain ⟨a, ha, hp⟩ := List.mem_flatMap.1 hp
      obtain ⟨b, hb, hp⟩ := List.mem_flatMap.1 hp
      obtain ⟨c, hc, hp⟩ := List.mem_flatMap.1 hp
      exact (((h.entry a ha).entry b hb).entry c hc).rank p hp
  · rw [brkByteSize, hgg, hr, List.length_append, encBRK, flatMap_length_const
      (fun ct hct => encGGSW_length (h.entry ct hct)), h.length, Option.bind_some,
      hgs.length, hrow, Option.bind_some, hshape.length]
    simp only [Option.map_some, List.length_append, putU64_length, putLen_length, putLenPred_length,
      Option.some.injEq]
    ring
  · refine Rt.bind (a := ⟨g, List.replicate n (zeroGLevs 64 g k k N)⟩) ?_ ?_
    · rw [List.append_assoc, List.append_assoc, List.append_assoc]
      refine Rt.bind (Rt.readU64 _) (Rt.bind (Rt.readU64 _) (Rt.bind (Rt.readU64 _)
        (Rt.bind (Rt.readU64 _) (Rt.bind_lift (f := fun N =>
        (GadgetLit.compile { base := (g.base.setWidth 64).setWidth w,
                             level := BitVec.ofNat 64 g.level }).bind
            (newBRK mem (BitVec.ofNat 64 n) (BitVec.ofNat 64 k - 1) N))
        (Rt.readU64 _) ?_))))
      rw [hg.compile hw, Option.bind_some, newBRK, makeEach_ofNat hm hn (newGGSW_ofNat hm hk hN hg)]
      rfl
    · have hz : BRK.rank (⟨g, List.replicate n (zeroGLevs 64 g k k N)⟩ : BRK w) = some N :=
        BRK.rank_eq (g := g) (n := n) (k := k) ⟨rfl, by simp, fun y hy => by
          rw [List.eq_of_mem_replicate hy]; exact zeroGLevs_shape g k k N⟩ hn0 hg.pos hk0
      refine Rt.lift_bind hz ?_
      have h1 := Rt.map (fun y => (⟨g, y⟩ : BRK w)) (Rt.readEach (enc := encGGSW)
        (f := readGLevs (N * 8)) (a := zeroGLevs 64 g k k N) h.length
        fun ct hct => Rt.glevs (by norm_num) (h.entry ct hct) (by simp))
      rw [← h.gadget] at h1 ⊢
      exact h1

/-! ## Uni-encryptions -/

theorem codec_uni (hw : w ≤ 64) (hv : 8 ∣ v) (hm : mem < 2 ^ 63) (h2 : 2 ≤ mem)
    {g : GadgetParams w} (hg : Compiled mem g) {N : ℕ} (hN : RankOK mem N)
    {x : GGSW w v} (h : IsGLevs g 2 2 N x) :
    Codec (uniWriteTo x) (uniByteSize x) (uniReadFrom mem) x := by
  obtain ⟨row, hrow, hshape⟩ := glevs_head (by norm_num) h
  have hr := GGSW.rank_eq h (by norm_num) hg.pos (by norm_num)
  refine Codec.finish
    (h := putU64 (g.base.setWidth 64) ++ putLen g.level ++ putLen N)
    (b := encGGSW x) ?_ (ggswValue_eq (by norm_num) hg.pos (by norm_num) h) ?_ ?_
  · rw [uniHeader, hrow, hr, h.gadget, Option.bind_some, hshape.length]; rfl
  · rw [uniByteSize, hrow, hr, List.length_append, encGGSW_length h, Option.bind_some,
      hshape.length]
    simp only [Option.map_some, List.length_append, putU64_length, putLen_length,
      Option.some.injEq]
    ring
  · refine Rt.bind (a := zeroGLevs v g 2 2 N) ?_
      (Rt.ggswValueRead hv (by norm_num) hg.pos (by norm_num) h)
    rw [List.append_assoc]
    refine Rt.bind (Rt.readU64 _) (Rt.bind (Rt.readU64 _)
      (Rt.bind_lift (f := fun N =>
      (GadgetLit.compile { base := (g.base.setWidth 64).setWidth w,
                           level := BitVec.ofNat 64 g.level }).bind (newUni mem N))
      (Rt.readU64 _) ?_))
    have h1 := newGLev_ofNat (v := v) hm h2 hN hg
    rw [hg.compile hw, Option.bind_some, newUni,
      show (1 : BitVec 64) = BitVec.ofNat 64 2 - 1 by decide, h1, fill_some]
    rfl

/-! ## Composite keys -/

theorem Codec.andThen {α β : Type} {wa wb : Option Wr} {sa sb : Option ℕ} {ra : Reader α}
    {rb : α → Reader β} {x : α} {y : β} (ha : Codec wa sa ra x) (hb : Codec wb sb (rb x) y) :
    Codec (Wr.andThen wa wb) (sa.bind fun a => sb.map (a + ·)) (ra.bind rb) y := by
  obtain ⟨a, a1, a2, a3⟩ := ha
  obtain ⟨b, b1, b2, b3⟩ := hb
  exact ⟨a ++ b, andThen_eq a1 b1, by simp [a2, b2], Rt.bind a3 b3⟩

theorem Codec.map {α β : Type} {wa : Option Wr} {sa : Option ℕ} {ra : Reader α} (f : α → β)
    {x : α} (ha : Codec wa sa ra x) : Codec wa sa (ra.map f) (f x) := by
  obtain ⟨a, a1, a2, a3⟩ := ha
  exact ⟨a, a1, a2, Rt.map f a3⟩

theorem Codec.check {α : Type} {wa : Option Wr} {sa so : Option ℕ} {ra : Reader α}
    {x : α} (ha : Codec wa sa ra x) (hs : so = sa) : Codec (Wr.check wa so) so ra x := by
  obtain ⟨a, a1, a2, a3⟩ := ha
  exact ⟨a, check_eq a1 (hs ▸ a2), hs ▸ a2, a3⟩

/-- Bytes written as they are. -/
theorem Codec.raw {α : Type} {b : Bytes} {r : Reader α} {x : α} (h : Rt r b x) :
    Codec (some ⟨b, false⟩) (some b.length) r x := ⟨b, rfl, rfl, h⟩

theorem codec_evk (hw8 : 8 ∣ w) (hw : w ≤ 64) (hm : mem < 2 ^ 63) {gb gk : GadgetParams w}
    {n k N m d : ℕ} {x : EvalKey w} (h : IsEvkShape mem gb gk n k N m d x) :
    Codec (evkWriteTo x) (evkByteSize x) (evkReadFrom mem) x := by
  have hb := codec_brk hw hm h.gb_ok h.n_pos h.n_le h.k_pos h.k_le h.N_ok h.brk
  have flag : ∀ b : BitVec 8, ∀ {β : Type} (f : BitVec 8 → Reader β) (c : β) (bs : Bytes),
      Rt (f b) bs c → Rt ((readFull 1).bind fun l => (Reader.lift l.head?).bind f) ([b] ++ bs) c := by
    intro b β f c bs hf
    exact Rt.bind (Rt.readFull rfl) (Rt.lift_bind rfl hf)
  obtain ⟨bb, b1, b2, b3⟩ := hb
  unfold evkWriteTo evkReadFrom
  by_cases hk : 0 < x.ksk.value.length
  · have hm0 : 0 < m := h.ksk.length ▸ hk
    obtain ⟨kb, k1, k2, k3⟩ := codec_lweKSK hw8 hw hm h.gk_ok hm0 h.m_le h.d_le h.ksk
    rw [if_pos hk]
    have hs : evkByteSize x = some ([1] ++ (bb ++ kb) : Bytes).length := by
      rw [evkByteSize, b2, Option.bind_some, if_pos hk, k2]
      simp
      ring
    refine ⟨[1] ++ (bb ++ kb), check_eq ?_ hs, hs, ?_⟩
    · exact andThen_eq rfl (andThen_eq b1 (by rw [if_neg (by decide)]; exact k1))
    · exact flag 1 _ _ _ (Rt.bind b3 (Rt.map _ k3))
  · have hm0 : m = 0 := by rw [h.ksk.length] at hk; omega
    obtain ⟨kb, k1, k2, k3⟩ := codec_gadget hw h.gk_ok
    rw [if_neg hk]
    have hs : evkByteSize x = some ([0] ++ (bb ++ kb) : Bytes).length := by
      rw [evkByteSize, b2, Option.bind_some, if_neg hk]
      simp only [Option.some.injEq] at k2
      simp [← k2]
      ring
    refine ⟨[0] ++ (bb ++ kb), check_eq ?_ hs, hs, ?_⟩
    · refine andThen_eq rfl (andThen_eq b1 ?_)
      rw [if_pos rfl, h.ksk.gadget]
      exact k1
    · have hx : x = ⟨x.brk, ⟨gk, []⟩⟩ := by
        obtain ⟨b, ⟨g, val⟩⟩ := x
        have h1 := h.ksk.length
        have h2 := h.ksk.gadget
        simp only [hm0, List.length_eq_zero_iff] at h1 h2
        rw [h1, h2]
      have hz : newLWEKSK mem 0 0 gk = some ⟨gk, []⟩ := by
        rw [newLWEKSK, show (0 : BitVec 64) = BitVec.ofNat 64 0 by rfl, makeEach,
          mkSlice_ofNat hm (Nat.zero_le _)]
        rfl
      conv => arg 3; rw [hx]
      refine flag 0 _ _ _ (Rt.bind b3 ?_)
      rw [if_pos rfl]
      have := Rt.bind (f := fun g => (Reader.lift (newLWEKSK mem 0 0 g)).map fun ksk =>
        (⟨x.brk, ksk⟩ : EvalKey w)) k3 (Rt.map _ (Rt.lift hz))
      simpa using this

theorem newSecretKey_ofNat (hm : mem < 2 ^ 63) {n k N : ℕ} (hN : RankOK mem N) (hle : k * N ≤ mem)
    (hn : n ≤ k * N) :
    newSecretKey mem (BitVec.ofNat 64 n) (BitVec.ofNat 64 k) (BitVec.ofNat 64 N)
      = some (⟨n, k, N, List.replicate (k * N) 0,
          List.replicate k (List.replicate N 0)⟩ : SecKey w) := by
  have h16 := hN.min
  have hk : k ≤ mem := le_trans (Nat.le_mul_of_pos_right k (by omega)) hle
  have hNm := hN.le
  have hmul : ∀ a, BitVec.ofNat 64 a * BitVec.ofNat 64 N = BitVec.ofNat 64 (a * N) := fun a =>
    (BitVec.ofNat_mul _ _).symm
  have hsucc : ∀ a, BitVec.ofNat 64 a + 1 = BitVec.ofNat 64 (a + 1) := fun a => by
    rw [BitVec.ofNat_add]; rfl
  have hall : ((List.range (List.replicate k ()).length).all fun i =>
        decide (0 ≤ (BitVec.ofNat 64 i * BitVec.ofNat 64 N).toInt) &&
        decide ((BitVec.ofNat 64 i * BitVec.ofNat 64 N).toInt
          ≤ ((BitVec.ofNat 64 i + 1) * BitVec.ofNat 64 N).toInt) &&
        decide (((BitVec.ofNat 64 i + 1) * BitVec.ofNat 64 N).toInt
          ≤ (List.replicate (k * N) (0 : BitVec w)).length)) = true := by
    rw [List.all_eq_true]
    intro i hi
    rw [List.mem_range, List.length_replicate] at hi
    have h1 : (i + 1) * N ≤ k * N := Nat.mul_le_mul_right N hi
    have h2 : i * N ≤ (i + 1) * N := Nat.mul_le_mul_right N (by omega)
    rw [hsucc, hmul, hmul, toInt_ofNat_lt (by omega), toInt_ofNat_lt (by omega),
      List.length_replicate]
    simp only [Bool.and_eq_true, decide_eq_true_eq]
    omega
  rw [newSecretKey, hmul, mkSlice_ofNat hm hle, Option.bind_some, mkSlice_ofNat hm hk,
    Option.bind_some, if_pos hall, newGLWESecretKey, makeEach_ofNat hm hk (newPoly_ofNat hm hN),
    Option.bind_some, toInt_ofNat_lt (by omega), List.length_replicate, List.length_replicate,
    if_neg (by omega), BitVec.toNat_ofNat, BitVec.toNat_ofNat, Nat.mod_eq_of_lt (by omega),
    Nat.mod_eq_of_lt (by omega)]

theorem codec_sk (hw8 : 8 ∣ w) (hm : mem < 2 ^ 63) {n k N : ℕ} {x : SecKey w}
    (h : IsSKShape mem n k N x) : Codec (skWriteTo x) (skByteSize x) (skReadFrom mem) x := by
  have hk0 := h.k_pos
  refine Codec.finish (h := putLen n ++ putLen k ++ putLen N) (b := vecWriteTo x.large ++ encPolys x.fft)
    ?_ ?_ ?_ ?_
  · rw [skHeader, h.rank, if_neg (by omega), h.dim, h.poly]
  · rw [polysValue_eq hk0 h.fft]; rfl
  · rw [skByteSize, h.rank, if_neg (by omega), h.poly]
    simp only [List.length_append, putLen_length, vecWriteTo_length, encPolys_length h.fft, h.large,
      Option.some.injEq]
    ring
  · refine Rt.bind (a := (⟨n, k, N, List.replicate (k * N) 0,
          List.replicate k (List.replicate N 0)⟩ : SecKey w)) ?_ ?_
    · rw [List.append_assoc]
      exact Rt.bind (Rt.readU64 _) (Rt.bind (Rt.readU64 _) (Rt.bind_lift
        (f := newSecretKey mem _ _) (Rt.readU64 _) (newSecretKey_ofNat hm h.N_ok h.le h.dim_le)))
    · have h1 := Rt.map (fun fft => (⟨n, k, N, x.large, fft⟩ : SecKey w))
        (Rt.polysValueRead (by norm_num) hk0 h.fft)
      have hx : (⟨n, k, N, x.large, x.fft⟩ : SecKey w) = x := by
        rw [← h.dim, ← h.rank, ← h.poly]
      rw [hx] at h1
      exact Rt.bind (Rt.vecReadFrom hw8 h.large) h1

theorem codec_pubKey (hw8 : 8 ∣ w) (hm : mem < 2 ^ 63) {k N : ℕ} (hk : 0 < k) (hkm : k + 1 ≤ mem)
    (hN : RankOK mem N) {x : PubKey w} (h1 : IsPKShape k N x.lweKey) (h2 : IsPKShape k N x.glweKey) :
    Codec (pubKeyWriteTo x) (pubKeyByteSize x) (pubKeyReadFrom mem) x :=
  Codec.check (Codec.andThen (codec_pk hw8 hm hk hkm hN h1)
    (Codec.map (fun b => (⟨x.lweKey, b⟩ : PubKey w)) (codec_pk hw8 hm hk hkm hN h2))) rfl

theorem codec_mkEvk (hw8 : 8 ∣ w) (hw : w ≤ 64) (hm : mem < 2 ^ 63) (h2 : 2 ≤ mem)
    {gb gk gc gr : GadgetParams w} {n k N m d : ℕ} {x : MKEvalKey w}
    (h : IsEvkShape mem gb gk n k N m d x.evk) (hgc : Compiled mem gc) (hgr : Compiled mem gr)
    (hc : IsGLevShape gc 2 N x.crs) (hr : IsGLevs gr 2 2 N x.relin) :
    Codec (mkEvkWriteTo x) (mkEvkByteSize x) (mkEvkReadFrom mem) x := by
  have hall : Codec (mkEvkWriteTo x) (mkEvkByteSize x)
      ((evkReadFrom mem).bind fun a => (glevReadFrom mem).bind fun b =>
        (uniReadFrom mem).map fun c => (⟨a, b, c⟩ : MKEvalKey w)) x := by
    refine Codec.check (Codec.andThen (codec_evk hw8 hw hm h) (Codec.andThen
      (codec_glev hw (by norm_num) hm hgc (by norm_num) h2 h.N_ok hc)
      (Codec.map (fun c => (⟨x.evk, x.crs, c⟩ : MKEvalKey w))
        (codec_uni hw (by norm_num) hm h2 hgr h.N_ok hr)))) ?_
    unfold mkEvkByteSize
    cases evkByteSize x.evk <;> cases glevByteSize x.crs <;> cases uniByteSize x.relin <;>
      simp [add_assoc]
  obtain ⟨b, b1, b2, b3⟩ := hall
  refine ⟨b, b1, b2, ?_, ?_⟩
  · intro rest
    simp [mkEvkReadFrom, b3.ok rest, b2]
  · intro p hp hne
    obtain ⟨e, he⟩ := b3.trunc p hp hne
    exact ⟨e, by simp [mkEvkReadFrom, he]⟩

/-! ## Parameters -/

theorem setWidth_roundTrip (hw : w ≤ 64) (x : BitVec w) : (x.setWidth 64).setWidth w = x := by
  apply BitVec.eq_of_toNat_eq
  have hb := x.isLt
  have h64 : 2 ^ w ≤ 2 ^ 64 := Nat.pow_le_pow_right (by norm_num) hw
  rw [BitVec.toNat_setWidth, BitVec.toNat_setWidth, Nat.mod_eq_of_lt (by omega),
    Nat.mod_eq_of_lt (by omega)]

theorem compile_level_lt {p : GadgetLit w} {g : GadgetParams w} (h : p.compile = some g) :
    g.level < 2 ^ 64 := by
  unfold GadgetLit.compile at h
  split at h
  · simp at h
  split at h
  · simp at h
  split at h
  · simp at h
  rw [Option.bind_eq_some_iff] at h
  obtain ⟨lb, _, h⟩ := h
  split at h
  · simp at h
  · simp only [Option.some.injEq] at h
    rw [← h]
    exact p.level.isLt

theorem codec_params (hw : w ≤ 64) {impl : BitVec w} {lit : ParamsLit w} {p : Params w}
    (h : lit.compile impl = some p) :
    Codec (paramsWriteTo p) (some 97) (paramsReadFrom impl) p := by
  obtain ⟨hb, lr, br, ks, hlr, hbr, hks, hp⟩ := compile_inv impl lit p h
  have hbr' : Compiled (2 ^ 64) p.blindRotateParams := by
    rw [hp]; exact ⟨⟨_, hbr⟩, (compile_level_lt hbr).le⟩
  have hks' : Compiled (2 ^ 64) p.keySwitchParams := by
    rw [hp]; exact ⟨⟨_, hks⟩, (compile_level_lt hks).le⟩
  have hord : (p.bootstrapOrder.setWidth 8).setWidth 64 = p.bootstrapOrder := by
    have h0 : p.bootstrapOrder = 0 ∨ p.bootstrapOrder = 1 := by
      rw [hp]
      obtain ⟨-, -, -, -, -, -, -, -, -, -, ho⟩ := (bad_eq_false_iff _).1 hb
      exact ho.imp (fun e => BitVec.eq_of_toInt_eq e) (fun e => BitVec.eq_of_toInt_eq e)
    rcases h0 with h0 | h0 <;> rw [h0] <;> rfl
  obtain ⟨gb, b1, b2, b3⟩ := codec_gadget hw hbr'
  obtain ⟨gk, k1, k2, k3⟩ := codec_gadget hw hks'
  simp only [Option.some.injEq] at b2 k2
  have hlit := C23_literal impl lit p h
  have hs : ∀ l : Bytes, l.length = 64 →
      some (8 * 8 + 16 + 16 + 1) = some (l ++ (gb ++ (gk ++ [p.bootstrapOrder.setWidth 8]))).length := by
    intro l hl
    simp [hl, ← b2, ← k2]
  refine ⟨_, check_eq (andThen_eq rfl (andThen_eq b1 (andThen_eq k1 rfl))) (hs _ ?_), ?_, ?_⟩
  · simp [putU64_length]
  · exact hs _ (by simp [putU64_length])
  · simp only [List.append_assoc]
    refine Rt.bind (Rt.readU64 _) (Rt.bind (Rt.readU64 _) (Rt.bind (Rt.readU64 _)
      (Rt.bind (Rt.readU64 _) (Rt.bind (Rt.readU64 _) (Rt.bind (Rt.readU64 _)
      (Rt.bind (Rt.readU64 _) (Rt.bind (Rt.readU64 _) (Rt.bind b3 (Rt.bind k3 ?_)))))))))
    have h1 : Rt (readFull 1) [p.bootstrapOrder.setWidth 8] [p.bootstrapOrder.setWidth 8] :=
      Rt.readFull rfl
    refine (List.append_nil [p.bootstrapOrder.setWidth 8]) ▸ Rt.bind h1
      (Rt.lift_bind (a := p.bootstrapOrder.setWidth 8) rfl (Rt.lift ?_))
    rw [hord, setWidth_roundTrip hw]
    exact hlit

theorem mkCompile_inv {impl : BitVec w} {lit : MKParamsLit w} {p : MKParams w}
    (h : lit.compile impl = some p) : lit.subParams.compile impl = some p.subParams ∧
      lit.accumulatorParams.compile = some p.accumulatorParams ∧
      lit.relinKeyParams.compile = some p.relinKeyParams := by
  unfold MKParamsLit.compile at h
  rw [Option.bind_eq_some_iff] at h
  obtain ⟨sub, hs, h⟩ := h
  split at h
  · simp at h
  split at h
  · simp at h
  split at h
  · simp at h
  rw [Option.bind_eq_some_iff] at h
  obtain ⟨acc, ha, h⟩ := h
  rw [Option.bind_eq_some_iff] at h
  obtain ⟨rel, hr, h⟩ := h
  simp only [Option.some.injEq] at h
  rw [← h]
  exact ⟨hs, ha, hr⟩

theorem codec_mkParams (hw : w ≤ 64) {impl : BitVec w} {lit : MKParamsLit w} {p : MKParams w}
    (h : lit.compile impl = some p) :
    Codec (mkParamsWriteTo p) (some 137) (mkParamsReadFrom impl) p := by
  have hlit := C23_mk_literal impl lit p h
  obtain ⟨hs, ha, hr⟩ := mkCompile_inv h
  have ha' : Compiled (2 ^ 64) p.accumulatorParams := ⟨⟨_, ha⟩, (compile_level_lt ha).le⟩
  have hr' : Compiled (2 ^ 64) p.relinKeyParams := ⟨⟨_, hr⟩, (compile_level_lt hr).le⟩
  obtain ⟨s, s1, s2, s3⟩ := codec_params hw hs
  obtain ⟨ga, a1, a2, a3⟩ := codec_gadget hw ha'
  obtain ⟨gr, r1, r2, r3⟩ := codec_gadget hw hr'
  simp only [Option.some.injEq] at s2 a2 r2
  have hsz : some ((8 * 8 + 16 + 16 + 1) + 8 + 16 + 16)
      = some (s ++ (putU64 p.partyCount ++ (ga ++ gr))).length := by
    simp [putU64_length, ← s2, ← a2, ← r2]
  refine ⟨_, check_eq (andThen_eq s1 (andThen_eq rfl (andThen_eq a1 r1))) hsz, hsz, ?_⟩
  unfold mkParamsReadFrom
  refine Rt.bind s3 ?_
  refine Rt.bind (Rt.readU64 _) ?_
  refine Rt.bind a3 ?_
  refine Rt.bind_lift r3 ?_
  exact hlit

end Tfhe.Ser
