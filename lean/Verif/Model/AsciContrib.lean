import Verif.Model.Ham
import Verif.Model.AsciSort
import Verif.Model.Constraint
import Mathlib.Data.List.Sort
import Mathlib.Data.List.Dedup
/-
Model of the generation of ASCI contributions: `include/macis/asci/determinant_contributions.hpp`,
`mask_constraints.hpp:243-404` and `asci_contributions_standard` / `asci_contributions_constraint`
(`determinant_search.hpp:53-391`).

Simplifications: `double` is an ordered field `R` (exact arithmetic, `x / 0 = 0`).  The integral arrays
`T_pq`, `G_red`, `V_red`, `G_pqrs`, `V_pqrs` passed next to `ham_gen` are those of `ham_gen` (as all
callers do) with leading dimension `norb`; an address `x + y*ld + z*ld^2 + w*ld^3` is the element
`(x,y,z,w)`.  `auto` loop variables of type `int` do not overflow.
-/
namespace Macis
variable {R : Type} [Field R] [LinearOrder R] {M : Nat}

namespace Integrals
variable (I : Integrals R)

/-- `append_singles_asci_contributions` (determinant_contributions.hpp:25-66): what it appends. -/
def singlesContrib (coeff : R) (stateFull : BitVec (2 * M)) (stateSame : BitVec M)
    (occS virS occO : List Nat) (eps : List R) (tol rootDiag E0 : R) (shift : Nat) :
    List (Contrib (2 * M) R) :=
  occS.flatMap fun i => virS.filterMap fun a =>
    let h := I.T a i + (occS.map fun p => I.Gred p a i).sum + (occO.map fun p => I.Vred p a i).sum
    if |h| < tol then none
    else
      let exDet := flip (flip stateFull (i + shift)) (a + shift)
      let h := h * (singleExcitationSign stateSame a i : R)
      let hDiag := I.fastDiagSingleEn (eps.getD i 0) (eps.getD a 0) i a rootDiag
      some ⟨exDet, coeff * (h / (E0 - hDiag))⟩

/-- `append_ss_doubles_asci_contributions` (determinant_contributions.hpp:68-120): what it appends. -/
def ssDoublesContrib (coeff : R) (stateFull : BitVec (2 * M)) (stateSpin : BitVec M)
    (occ vir : List Nat) (eps : List R) (tol rootDiag E0 : R) (shift : Nat) :
    List (Contrib (2 * M) R) :=
  (List.range occ.length).flatMap fun ii => (List.range vir.length).flatMap fun aa =>
    (List.range' (ii + 1) (occ.length - (ii + 1))).flatMap fun jj =>
      (List.range' (aa + 1) (vir.length - (aa + 1))).filterMap fun bb =>
        let i := occ.getD ii 0
        let a := vir.getD aa 0
        let j := occ.getD jj 0
        let b := vir.getD bb 0
        let g := I.G b j a i
        if |g| < tol then none
        else
          let fullExSpin := flip (flip (flip (flip (0#M) i) j) a) b
          let exDetSpin := stateSpin ^^^ fullExSpin
          let sign : R := (doublesSign stateSpin exDetSpin fullExSpin : Int)
          let exDet := stateFull ^^^ (expandBitset (2 * M) fullExSpin <<< shift)
          let hDiag := I.fastDiagSSDoubleEn (eps.getD i 0) (eps.getD j 0) (eps.getD a 0) (eps.getD b 0)
            i j a b rootDiag
          some ⟨exDet, coeff * (sign * g / (E0 - hDiag))⟩

/-- `append_os_doubles_asci_contributions` (determinant_contributions.hpp:122-160): what it appends. -/
def osDoublesContrib (coeff : R) (stateFull : BitVec (2 * M)) (stateA stateB : BitVec M)
    (occA occB virA virB : List Nat) (epsA epsB : List R) (tol rootDiag E0 : R) :
    List (Contrib (2 * M) R) :=
  occA.flatMap fun i => virA.flatMap fun a =>
    let signA : R := (singleExcitationSign stateA a i : Int)
    occB.flatMap fun j => virB.filterMap fun b =>
      let v := I.V a i b j
      if |v| < tol then none
      else
        let signB : R := (singleExcitationSign stateB b j : Int)
        let exDet := flip (flip (flip (flip stateFull a) i) (j + M)) (b + M)
        let hDiag := I.fastDiagOSDoubleEn (epsA.getD i 0) (epsB.getD j 0) (epsA.getD a 0) (epsB.getD b 0)
          i j a b rootDiag
        some ⟨exDet, coeff * (signA * signB * v / (E0 - hDiag))⟩

end Integrals

/-- The fields of `ASCISettings` (determinant_search.hpp:34-51) used while collecting contributions. -/
structure ContribSettings (R : Type) where
  hElTol : R
  rvPruneTol : R
  pairSizeMax : Nat
  justSingles : Bool
  constraintLevel : Nat

/-- Body of the loop over core determinants without the pruning (determinant_search.hpp:69-118): the
contributions of one determinant, in order.  `none`: more electrons than `norb`. -/
def detContribs (I : Integrals R) (st : ContribSettings R) (norb : Nat) (E0 coeff : R)
    (state : BitVec (2 * M)) : Option (List (Contrib (2 * M) R)) := do
  let stateA := loWord state
  let stateB := hiWord state
  let (occA, virA) ← bitsetToOccVir norb stateA
  let (occB, virB) ← bitsetToOccVir norb stateB
  let epsA := I.singleOrbitalEns norb occA occB
  let epsB := I.singleOrbitalEns norb occB occA
  let hDiag := I.matrixElement state state
  let tol := st.hElTol
  let singles :=
    I.singlesContrib coeff state stateA occA virA occB epsA tol hDiag E0 0 ++
    I.singlesContrib coeff state stateB occB virB occA epsB tol hDiag E0 M
  let doubles :=
    if st.justSingles then []
    else
      I.ssDoublesContrib coeff state stateA occA virA epsA tol hDiag E0 0 ++
      I.ssDoublesContrib coeff state stateB occB virB epsB tol hDiag E0 M ++
      I.osDoublesContrib coeff state stateA stateB occA occB virA virB epsA epsB tol hDiag E0
  return singles ++ doubles

/-- The pruning step (determinant_search.hpp:120-137); `part` is the order left by `std::partition`,
`srt` the sort by bitstring. -/
def pruneStandard (st : ContribSettings R) (srt part : List (Contrib (2 * M) R) → List (Contrib (2 * M) R))
    (pairs : List (Contrib (2 * M) R)) : List (Contrib (2 * M) R) :=
  if pairs.length > st.pairSizeMax then
    let kept := (part pairs).filter fun x => st.rvPruneTol < |x.rv|
    if kept.length > st.pairSizeMax then sortAccumulate srt kept else kept
  else pairs

/-- `asci_contributions_standard` (determinant_search.hpp:53-141).  `none`: fewer coefficients than
core determinants (out-of-range read), or more electrons than `norb`. -/
def asciContributionsStandard (I : Integrals R) (st : ContribSettings R) (norb : Nat) (E0 : R)
    (srt part : List (Contrib (2 * M) R) → List (Contrib (2 * M) R)) (cdets : List (BitVec (2 * M)))
    (C : List R) : Option (List (Contrib (2 * M) R)) :=
  if C.length < cdets.length then none
  else (cdets.zip C).foldlM (fun pairs x => do
    let new ← detContribs I st norb E0 x.2 x.1
    return pruneStandard st srt part (pairs ++ new)) []

/-- `asci_search` on one rank (determinant_search.hpp:394-663): contributions, then selection. -/
def asciSearchSerial (I : Integrals R) (st : ContribSettings R) (norb : Nat) (E0 : R)
    (srt part : List (Contrib (2 * M) R) → List (Contrib (2 * M) R))
    (nth : Nat → List (Contrib (2 * M) R) → List (Contrib (2 * M) R)) (ndetsMax : Nat)
    (cdets : List (BitVec (2 * M))) (C : List R) : Option (List (BitVec (2 * M))) := do
  let pairs ← asciContributionsStandard I st norb E0 srt part cdets C
  asciSelectSerial srt part nth ndetsMax cdets C pairs

/-- The number returned by `fls` (bitset_operations.hpp:184-203); `fls(0)` is undefined and not called by the
loops below (any value for it). -/
def flsVal {N : Nat} (s : BitVec N) : Nat := (fls s).getD (2 ^ 32 - 1)

/-- Loops `fls`, `flip` (mask_constraints.hpp:258-266, 361-369): the `n` highest set bits, descending. -/
def flsIndices {N : Nat} : Nat → BitVec N → List Nat
  | 0, _ => []
  | n + 1, s => flsVal s :: flsIndices n (flip s (flsVal s))

namespace Integrals
variable (I : Integrals R)

/-- `generate_constraint_singles_contributions_ss` (mask_constraints.hpp:243-291): what it appends.
Strings are `wfn_t<2*M>`. -/
def constraintSinglesContrib (coeff : R) (det T O B osDet : BitVec (2 * M)) (occS occO : List Nat)
    (eps : List R) (tol rootDiag E0 : R) : List (Contrib (2 * M) R) :=
  let ov := constraintSingleEx det T O B
  if count ov.1 = 0 ∨ count ov.2 = 0 then []
  else
    (flsIndices (count ov.1) ov.1).flatMap fun i => (flsIndices (count ov.2) ov.2).filterMap fun a =>
      let h := I.T a i + (occS.map fun p => I.Gred p a i).sum + (occO.map fun p => I.Vred p a i).sum
      if |coeff * h| < tol then none
      else
        let exDet := flip (flip (det ||| osDet) i) a
        let h := h * (singleExcitationSign det a i : R)
        let hDiag := I.fastDiagSingleEn (eps.getD i 0) (eps.getD a 0) i a rootDiag
        some ⟨exDet, coeff * (h / (E0 - hDiag))⟩

/-- `generate_constraint_doubles_contributions_ss` (mask_constraints.hpp:293-344): what it appends. -/
def constraintSSDoublesContrib (coeff : R) (det T O B osDet : BitVec (2 * M))
    (eps : List R) (tol rootDiag E0 : R) : List (Contrib (2 * M) R) :=
  let OV := constraintDoubleEx det T O B
  if OV.1.isEmpty ∨ OV.2.isEmpty then []
  else
    OV.1.flatMap fun ij => OV.2.filterMap fun ab =>
      let i := ffs ij - 1
      let j := flsVal ij
      let a := ffs ab - 1
      let b := flsVal ab
      let g := I.G b j a i
      if |coeff * g| < tol then none
      else
        let fullExSpin := ij ||| ab
        let exDetSpin := (det ^^^ ij) ||| ab
        let sign : R := (doublesSign det exDetSpin fullExSpin : Int)
        let hDiag := I.fastDiagSSDoubleEn (eps.getD i 0) (eps.getD j 0) (eps.getD a 0) (eps.getD b 0)
          i j a b rootDiag
        some ⟨exDetSpin ||| osDet, coeff * (sign * g / (E0 - hDiag))⟩

/-- `generate_constraint_doubles_contributions_os` (mask_constraints.hpp:346-404): what it appends. -/
def constraintOSDoublesContrib (coeff : R) (det T O B osDet : BitVec (2 * M)) (occO virO : List Nat)
    (epsS epsO : List R) (tol rootDiag E0 : R) : List (Contrib (2 * M) R) :=
  let ov := constraintSingleEx det T O B
  if count ov.1 = 0 ∨ count ov.2 = 0 then []
  else
    (flsIndices (count ov.1) ov.1).flatMap fun i => (flsIndices (count ov.2) ov.2).flatMap fun a =>
      let signS : R := (singleExcitationSign det a i : Int)
      occO.flatMap fun j => virO.filterMap fun b =>
        let v := I.V a i b j
        if |coeff * v| < tol then none
        else
          let signO : R := (singleExcitationSign (hiWord osDet) b j : Int)
          let exDet := flip (flip (flip (flip (det ||| osDet) i) a) (j + M)) (b + M)
          let hDiag := I.fastDiagOSDoubleEn (epsS.getD i 0) (epsO.getD j 0) (epsS.getD a 0) (epsO.getD b 0)
            i j a b rootDiag
          some ⟨exDet, coeff * (signS * signO * v / (E0 - hDiag))⟩

end Integrals

/-- `beta_coeff_data` (determinant_search.hpp:175-204). -/
structure BetaData (M : Nat) (R : Type) where
  beta : BitVec (2 * M)
  occB : List Nat
  virB : List Nat
  ensA : List R
  ensB : List R
  coeff : R
  hDiag : R

/-- the constructor of `beta_coeff_data` (determinant_search.hpp:184-203) -/
def makeBetaData (I : Integrals R) (norb : Nat) (c : R) (occA : List Nat) (w : BitVec (2 * M)) :
    Option (BetaData M R) := do
  let betaShift := w >>> M
  let (occB, virB) ← bitsetToOccVir norb betaShift
  return ⟨betaShift <<< M, occB, virB, I.singleOrbitalEns norb occA occB, I.singleOrbitalEns norb occB occA,
    c, I.matrixElement w w⟩

/-- the alpha string as a `wfn_t<2*M>` (`w & full_mask<N/2,N>()`, determinant_search.hpp:165, 217) -/
def alphaMask (w : BitVec (2 * M)) : BitVec (2 * M) := w &&& fullMaskStatic M (2 * M)

/-- unique alpha strings (determinant_search.hpp:161-172): masked, sorted, duplicates removed. -/
def uniqAlphas (cdets : List (BitVec (2 * M))) : List (BitVec (2 * M)) :=
  (List.insertionSort (fun x y : BitVec (2 * M) => x.toNat ≤ y.toNat) (cdets.map alphaMask)).dedup

/-- `uad[i].bcd` (determinant_search.hpp:210-221) for the alpha string `wa`. -/
def betaList (I : Integrals R) (norb : Nat) (cs : List (BitVec (2 * M) × R)) (wa : BitVec (2 * M)) :
    Option (List (BetaData M R)) := do
  let (occA, _) ← bitsetToOccVir norb wa
  (cs.filter fun x => alphaMask x.1 = wa).mapM fun x => makeBetaData I norb x.2 occA x.1

/-- Contributions of one alpha string under one constraint (determinant_search.hpp:282-352), in order:
AA, AAAA, AABB for all its determinants, then BB, BBBB if the string itself satisfies the constraint. -/
def constraintAlphaContribs (I : Integrals R) (norb : Nat) (tol E0 : R) (con : WfnConstraint (2 * M))
    (det : BitVec (2 * M)) (bcd : List (BetaData M R)) : List (Contrib (2 * M) R) :=
  let O := fullMask (2 * M) norb
  let occA := bitsToIndices det
  (bcd.flatMap fun b => I.constraintSinglesContrib b.coeff det con.C O con.B b.beta occA b.occB b.ensA tol b.hDiag E0) ++
  (bcd.flatMap fun b => I.constraintSSDoublesContrib b.coeff det con.C O con.B b.beta b.ensA tol b.hDiag E0) ++
  (bcd.flatMap fun b => I.constraintOSDoublesContrib b.coeff det con.C O con.B b.beta b.occB b.virB b.ensA b.ensB
    tol b.hDiag E0) ++
  if satisfiesConstraint det con.C con.Cmin then
    bcd.flatMap fun b =>
      let state := det ||| b.beta
      let stateB := hiWord b.beta
      I.singlesContrib b.coeff state stateB b.occB b.virB occA b.ensB tol b.hDiag E0 M ++
      I.ssDoublesContrib b.coeff state stateB b.occB b.virB b.ensB tol b.hDiag E0 M
  else []

/-- `sort_and_accumulate` of the elements from position `k` on (determinant_search.hpp:373-376, 384-386);
`none`: `begin() + k` is past the end. -/
def accumulateFrom (srt : List (Contrib (2 * M) R) → List (Contrib (2 * M) R)) (k : Nat)
    (pairs : List (Contrib (2 * M) R)) : Option (List (Contrib (2 * M) R)) :=
  if pairs.length < k then none
  else some (pairs.take k ++ sortAccumulate srt (pairs.drop k))

/-- The pruning step of the constraint search (determinant_search.hpp:354-379). -/
def pruneConstraint (st : ContribSettings R) (srt part : List (Contrib (2 * M) R) → List (Contrib (2 * M) R))
    (sizeBefore : Nat) (pairs : List (Contrib (2 * M) R)) : Option (List (Contrib (2 * M) R)) :=
  if pairs.length > st.pairSizeMax then
    let kept := (part pairs).filter fun x => st.rvPruneTol < |x.rv|
    if kept.length > st.pairSizeMax then accumulateFrom srt sizeBefore kept else some kept
  else some pairs

/-- One iteration of the constraint loop (determinant_search.hpp:273-388); `data` are the alpha strings
with their beta data. -/
def constraintStep (I : Integrals R) (st : ContribSettings R) (norb : Nat) (E0 : R)
    (srt part : List (Contrib (2 * M) R) → List (Contrib (2 * M) R))
    (data : List (BitVec (2 * M) × List (BetaData M R))) (pairs : List (Contrib (2 * M) R))
    (con : WfnConstraint (2 * M)) : Option (List (Contrib (2 * M) R)) := do
  let sizeBefore := pairs.length
  let pairs ← data.foldlM (fun pairs x =>
    pruneConstraint st srt part sizeBefore (pairs ++ constraintAlphaContribs I norb st.hElTol E0 con x.1 x.2)) pairs
  accumulateFrom srt sizeBefore pairs

/-- `asci_contributions_constraint` (determinant_search.hpp:144-391) on rank `rank` of `worldSize`.
`avg`, `partC`, `sortC` are the threshold and the reorderings of `dist_constraint_general`.  `n_sing - norb + 1` is `(n_occ - 1) (n_vir - 1)` and does not wrap unless
`n_sing = 0`.  `none`: no core
determinant (`uniq_alpha_wfn[0]` of an empty vector), too few coefficients, or one of the cases above. -/
def asciContributionsConstraint (I : Integrals R) (st : ContribSettings R) (norb : Nat) (E0 : R)
    (srt part : List (Contrib (2 * M) R) → List (Contrib (2 * M) R)) (worldSize rank avg : Nat)
    (partC sortC : List (WfnConstraint (2 * M) × Nat) → List (WfnConstraint (2 * M) × Nat))
    (cdets : List (BitVec (2 * M))) (C : List R) : Option (List (Contrib (2 * M) R)) := do
  if C.length < cdets.length then none
  else
    let uniq := uniqAlphas cdets
    let data ← uniq.mapM fun wa => do
      let bcd ← betaList I norb (cdets.zip C) wa
      return (wa, bcd)
    let wa0 ← uniq.head?
    let nOcc := count wa0
    let nSing := nOcc * (norb - nOcc)
    let nDoub := nSing * (nSing + 1 - norb) / 4
    let cons ← distConstraintGeneral st.constraintLevel norb nSing nDoub uniq worldSize rank avg partC sortC
    cons.foldlM (constraintStep I st norb E0 srt part data) []

/-- `asci_search` on `worldSize > 1` ranks (determinant_search.hpp:394-663): every rank collects the
contributions of its constraints, then the joint selection.  `none`: some rank fails. -/
def asciSearchDist (I : Integrals R) (st : ContribSettings R) (norb : Nat) (E0 : R)
    (srt part : List (Contrib (2 * M) R) → List (Contrib (2 * M) R)) (worldSize avg : Nat)
    (partC sortC : List (WfnConstraint (2 * M) × Nat) → List (WfnConstraint (2 * M) × Nat))
    (draw : Nat → Nat) (partS nthS : Nat → List R → List R) (ndetsMax : Nat)
    (cdets : List (BitVec (2 * M))) (C : List R) : Option (List (BitVec (2 * M))) := do
  let pairs ← (List.range worldSize).mapM fun rank =>
    asciContributionsConstraint I st norb E0 srt part worldSize rank avg partC sortC cdets C
  asciSelectDist srt part draw partS nthS ndetsMax cdets C pairs

end Macis
