import Verif.Model.Scratch

/-!
# What the steps of the scratch-buffer model do when run without interruption
-/
namespace Tfhe.Scratch

variable {w : ℕ} {F : Type}

theorem run_pure {A : Type} (a : A) (m : Mem w F) : (pure a : M w F A) m = some (a, m) := rfl

theorem run_panic {A : Type} (m : Mem w F) : (panic : M w F A) m = none := rfl

theorem run_rd (v : Vec) (i : ℕ) (m : Mem w F) :
    (rd v i : M w F (BitVec w)) m = if i < v.len then some (m.wd (v.cell i), m) else none := by
  unfold rd; split <;> rfl

theorem run_wr (v : Vec) (i : ℕ) (x : BitVec w) (m : Mem w F) :
    (wr v i x : M w F Unit) m = if i < v.len then some ((), m.setW (v.cell i) x) else none := by
  unfold wr; split <;> rfl

theorem run_rdList (ls : List WLoc) (m : Mem w F) : (rdList ls : M w F (List (BitVec w))) m = some (ls.map m.wd, m) := by
  induction ls with
  | nil => rfl
  | cons l ls ih =>
    show (rdList ls >>= fun xs => (pure (m.wd l :: xs) : M w F (List (BitVec w)))) m = _
    rw [run_bind, ih]
    rfl

theorem run_rdAll (v : Vec) (m : Mem w F) :
    (rdAll v : M w F (List (BitVec w))) m = some ((List.range v.len).map fun i => m.wd (v.cell i), m) := by
  unfold rdAll
  rw [run_rdList, List.map_map]
  rfl

theorem run_rdF (l : FLoc) (m : Mem w F) : (rdF l : M w F F) m = some (m.ft l, m) := rfl

theorem run_wrF (l : FLoc) (x : F) (m : Mem w F) : (wrF l x : M w F Unit) m = some ((), m.setF l x) := rfl

theorem run_scalarBuffer (g : GadgetParams w) (m : Mem w F) : (scalarBuffer g : M w F Vec) m =
    if g.level ≤ m.cLen then some (⟨.cDcmp, g.level⟩, m) else some (⟨.cDcmp, g.level⟩, m.growC g.level) := by
  show Prog.run (if g.level ≤ m.cLen then _ else _) m = _
  split <;> rfl

theorem run_polyBuffer (N : ℕ) (g : GadgetParams w) (m : Mem w F) : (polyBuffer N g : M w F (List Vec)) m =
    if g.level ≤ m.pLen then some ((List.range g.level).map fun j => ⟨.pDcmp j, N⟩, m)
    else some ((List.range g.level).map fun j => ⟨.pDcmp j, N⟩, m.growP g.level) := by
  show Prog.run (if g.level ≤ m.pLen then _ else _) m = _
  split <;> rfl

theorem run_fftPolyBuffer (O : Ops w F) (g : GadgetParams w) (m : Mem w F) : (fftPolyBuffer O g : M w F (List FLoc)) m =
    if g.level ≤ m.fpLen then some ((List.range g.level).map FLoc.fpDcmp, m)
    else some ((List.range g.level).map FLoc.fpDcmp, m.growF g.level O.zero) := by
  show Prog.run (if g.level ≤ m.fpLen then _ else _) m = _
  split <;> rfl

theorem run_sliceScalar (level : ℕ) (m : Mem w F) : (sliceScalar level : M w F Vec) m =
    if level ≤ m.cLen then some (⟨.cDcmp, level⟩, m) else none := by
  show Prog.run (if level ≤ m.cLen then _ else _) m = _
  split <;> rfl

theorem run_slicePoly (N level : ℕ) (m : Mem w F) : (slicePoly N level : M w F (List Vec)) m =
    if level ≤ m.pLen then some ((List.range level).map fun j => ⟨.pDcmp j, N⟩, m) else none := by
  show Prog.run (if level ≤ m.pLen then _ else _) m = _
  split <;> rfl

end Tfhe.Scratch
