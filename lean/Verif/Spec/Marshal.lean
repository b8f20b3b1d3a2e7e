import Verif.Model.Marshal

/-!
# Well-formed objects and what round-tripping means

The shapes are those the constructors produce: lengths agree with each other and with the gadget
parameters, polynomial ranks are powers of two not below 16, gadget parameters come from `Compile`.
`mem` bounds the length of slices.
-/
namespace Tfhe.Ser

variable {w v : ℕ}

/-- A polynomial rank `NewPoly` accepts. -/
structure RankOK (mem N : ℕ) : Prop where
  pow : ∃ j, N = 2 ^ j
  min : 16 ≤ N
  le : N ≤ mem

/-- `k` polynomials of rank `N`. -/
structure Polys (k N : ℕ) (x : List (List (BitVec v))) : Prop where
  length : x.length = k
  rank : ∀ p ∈ x, p.length = N

/-- Gadget parameters produced by `Compile`, of a level that can be allocated. -/
structure Compiled (mem : ℕ) (g : GadgetParams w) : Prop where
  lit : ∃ p : GadgetLit w, p.compile = some g
  le : g.level ≤ mem

/-- A Lev ciphertext with gadget `g` of vectors of length `n` (one more than the dimension). -/
structure IsLevShape (g : GadgetParams w) (n : ℕ) (x : Lev w) : Prop where
  gadget : x.gadget = g
  length : x.value.length = g.level
  entry : ∀ ct ∈ x.value, ct.length = n

/-- A GLev ciphertext with gadget `g` of `k` polynomials of rank `N` each (`k` is one more than the
GLWE rank). -/
structure IsGLevShape (g : GadgetParams w) (k N : ℕ) (x : GLev w v) : Prop where
  gadget : x.gadget = g
  length : x.value.length = g.level
  entry : ∀ ct ∈ x.value, Polys k N ct

/-- `m` Lev ciphertexts, all with the same gadget. -/
structure IsLevs (g : GadgetParams w) (m n : ℕ) (x : GSW w) : Prop where
  gadget : x.gadget = g
  length : x.value.length = m
  entry : ∀ row ∈ x.value, IsLevShape g n row

/-- `m` GLev ciphertexts, all with the same gadget. -/
structure IsGLevs (g : GadgetParams w) (m k N : ℕ) (x : GGSW w v) : Prop where
  gadget : x.gadget = g
  length : x.value.length = m
  entry : ∀ row ∈ x.value, IsGLevShape g k N row

/-- `n` GGSW ciphertexts of rank `k - 1`, all with the same gadget. -/
structure IsBRKShape (g : GadgetParams w) (n k N : ℕ) (x : BRK w) : Prop where
  gadget : x.gadget = g
  length : x.value.length = n
  entry : ∀ gg ∈ x.value, IsGLevs g k k N gg

/-- A public key: `k` GLWE ciphertexts of rank `k`. -/
structure IsPKShape (k N : ℕ) (x : List (List (List (BitVec v)))) : Prop where
  length : x.length = k
  entry : ∀ ct ∈ x, Polys (k + 1) N ct

/-- The shape of an evaluation key; the key-switching key may be absent. -/
structure IsEvkShape (mem : ℕ) (gb gk : GadgetParams w) (n k N m d : ℕ) (x : EvalKey w) : Prop where
  brk : IsBRKShape gb n k N x.brk
  ksk : IsLevs gk m d x.ksk
  gb_ok : Compiled mem gb
  gk_ok : Compiled mem gk
  n_pos : 0 < n
  n_le : n ≤ mem
  k_pos : 0 < k
  k_le : k ≤ mem
  N_ok : RankOK mem N
  m_le : m ≤ mem
  d_le : d ≤ mem

/-- The shape of a secret key. -/
structure IsSKShape (mem n k N : ℕ) (x : SecKey w) : Prop where
  dim : x.lweDimension = n
  rank : x.glweRank = k
  poly : x.polyRank = N
  large : x.large.length = k * N
  fft : Polys k N x.fft
  k_pos : 0 < k
  N_ok : RankOK mem N
  le : k * N ≤ mem
  dim_le : n ≤ k * N

/-- **Round trip.**  `WriteTo` succeeds, writing as many bytes as `ByteSize` says; `ReadFrom` on
these bytes, followed by anything, yields the same object, reports the same count, and leaves what
follows in the stream. -/
def RoundTrips {α : Type} (write : Option Wr) (size : Option ℕ) (read : Reader α) (x : α) : Prop :=
  ∃ b, write = some ⟨b, false⟩ ∧ size = some b.length ∧
    ∀ rest, read (b ++ rest) = .ok b.length x rest

/-- **Truncation.**  Reading any proper prefix of what `WriteTo` wrote reports an error. -/
def DetectsTruncation {α : Type} (write : Option Wr) (read : Reader α) : Prop :=
  ∃ b, write = some ⟨b, false⟩ ∧
    ∀ p, p <+: b → p ≠ b → ∃ n, read p = .err n

/-- The round trip of `LWESecretKey` as the code has it: as `RoundTrips`, but `ReadFrom` reports the
count `n` instead of the number of bytes. -/
def RoundTripsCount {α : Type} (n : ℕ) (write : Option Wr) (size : Option ℕ) (read : Reader α)
    (x : α) : Prop :=
  ∃ b, write = some ⟨b, false⟩ ∧ size = some b.length ∧
    ∀ rest, read (b ++ rest) = .ok n x rest

end Tfhe.Ser
