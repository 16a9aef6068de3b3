import Verif.Lemmas.MpiDriver
/-
C166: an ASCI calculation of the standalone program on several ranks, from the input file to the printed energy, under
every schedule.
-/
namespace Macis
open Spec Spec.Mpi Mpi Finset

variable {M : Nat}

theorem rankPar_behaves {env : DriverEnv} (hs : SortsOk env) (he : EigLocal env.eig) {re : RankEnv} (hr : RanksOk re)
    (o : DriverSettings) (n : Nat) : Behaves (rankPar env re o n) where
  srt := hs.srt
  part := hs.part
  partS := hr.partS
  nthS := hr.nthS
  eig := he
  rotT h w X i hi := (asciRotate_frame env.syev n h w X).1 i hi
  rotV h w X i hi := (asciRotate_frame env.syev n h w X).2 i hi

/-- C166 (one rank): the program of one process is the common start, growth and refinement around the search and
diagonalisation of one process, and the output of rank 0. -/
theorem C166_one_rank (env : DriverEnv) (input : List Char) {sp : Ini.Space} {o : DriverSettings} {f : FciData}
    (h : readJob env input = .ok (.ci, .asci, sp, o, f)) :
    driver env input = (asciJob env sp o f).bind fun j =>
      (asciPhases (asciEnv env o sp.nactive) o.asci env.fuel j).bind fun (E, w, X) => rankEnd env sp o j 0 E w X := by
  rw [driver_readJob, h]
  exact runJob_asci env sp o f

/-- C166 (all ranks): every input file, every number of ranks from two on, every behaviour of the library sorts, every
content of the memory, every schedule and buffering of messages: when growth and refinement around the joint search and
the whole matrix return, every rank gets through both phases with exactly that energy, those determinants and that CI
vector; when they throw, every rank ends with the exception.  Required: at least as many determinants as ranks. -/
theorem C166_all_ranks_partial {env : DriverEnv} (hs : SortsOk env) (he : EigLocal env.eig) {re : RankEnv} (hr : RanksOk re)
    (hP : 2 ≤ re.P) {input : List Char} {sp : Ini.Space} {o : DriverSettings} {f : FciData} {j : AsciJob}
    (_h : readJob env input = .ok (.ci, .asci, sp, o, f)) (_hj : asciJob env sp o f = .ok j) (h0 : 0 ≤ o.ci.matelTol)
    (hm : o.ci.maxSub ≠ 0) (hmin : re.P ≤ o.asci.ntdetsMin) (hmax : re.P ≤ o.asci.ntdetsMax)
    (h64 : o.asci.ntdetsMax < 2 ^ 64) (hd : j.dets.length < 2 ^ 64) (garbage garbage' : Nat → Nat → Nat → Nat → ℝ)
    (mem : Nat → AsciMem 32) (fuel rounds : Nat) (hf : re.P * 2 ^ (2 * 32) < fuel) :
    (∀ E w X, asciPhases (jointEnv (rankPar env re o sp.nactive)) o.asci rounds j = .ok (E, w, X) →
      ∃ st, AlwaysEnds (jobWorld (rankPar env re o sp.nactive) j fuel rounds garbage garbage' mem) st ∧
        ∀ r < re.P, (st r).err = false ∧ (st r).thrown = false ∧ (st r).E0 = E ∧ (st r).wfn = w ∧ (st r).X = X) ∧
    (asciPhases (jointEnv (rankPar env re o sp.nactive)) o.asci rounds j = .throw →
      ∃ st, AlwaysEnds (jobWorld (rankPar env re o sp.nactive) j fuel rounds garbage garbage' mem) st ∧
        ∀ r < re.P, (st r).err = false ∧ (st r).thrown = true) := by
  have key := phases_reach (rankPar_behaves hs he hr o sp.nactive) hP h0 hm hmin hmax h64 garbage garbage' mem fuel hf rounds j hd
  constructor
  · intro E w X hok
    rw [show asciPhases (jointEnv (rankPar env re o sp.nactive)) (rankPar env re o sp.nactive).asci rounds j = _ from hok] at key
    obtain ⟨s', hr', h', Es, hh⟩ := key
    exact ⟨s', ends_of_reach hr', fun r hr => ⟨hh.err r hr, hh.thrown r hr, hh.E0 r hr, hh.wfn r hr, hh.X r hr⟩⟩
  · intro hth
    rw [show asciPhases (jointEnv (rankPar env re o sp.nactive)) (rankPar env re o sp.nactive).asci rounds j = _ from hth] at key
    obtain ⟨s', hr', hh⟩ := key
    exact ⟨s', ends_of_reach hr', fun r hr => ⟨(hh r hr).2, (hh r hr).1⟩⟩

/-- C166 (files): rank 0 leaves behind what the program of one process with this result would; every other rank the
same except that it writes no wave-function file. -/
theorem C166_outputs (env : DriverEnv) (sp : Ini.Space) (o : DriverSettings) (j : AsciJob) (r : Nat) (hr : r ≠ 0) (E : ℝ)
    (w : List (BitVec (2 * 32))) (X : List ℝ) :
    ∃ out, rankEnd env sp o j r E w X = .ok out ∧ out.wfnOut = none ∧
      ∀ out0, rankEnd env sp o j 0 E w X = .ok out0 → out = { out0 with wfnOut := none } := by
  unfold rankEnd
  rw [if_neg (fun c => hr c.2)]
  refine ⟨_, rfl, rfl, fun out0 h0 => ?_⟩
  obtain ⟨wo, -, h0⟩ := out_bind_ok h0
  cases h0
  rfl

/-- C166 (energy): without orbital rotations, whatever the files contain and however the calculation is distributed and
scheduled, all ranks end with one energy `E`, and the energy the program prints is, up to the threshold below which
Hamiltonian elements are dropped, the core energy plus the energy expectation value, with the Hamiltonian in the file,
of a normalised state on at least `NTDETS_MAX` different determinants that fill the inactive orbitals and put
`NALPHA`/`NBETA` electrons into the active ones; and it is not above the energy of any single one of them. -/
theorem C166_energy_partial {env : DriverEnv} (hs : SortsOk env) (he : EigLocal env.eig) (hl : LowestPair env.eig)
    {re : RankEnv} (hr : RanksOk re) (hP : 2 ≤ re.P) {input : List Char} {es : List (FciEntry ℝ)} {sp : Ini.Space}
    {o : DriverSettings} (ha : Asks env input es .ci .asci sp o) (hg : o.mp2Guess = false)
    (hrot : o.asci.growWithRot = false) (hα : sp.nalpha ≤ sp.nactive) (hlev : 3 + o.contrib.constraintLevel ≤ sp.nalpha)
    (hroom : RoomFor (rankPar env re o sp.nactive) sp.nalpha sp.nbeta)
    (hfile : GuessFile env o sp.nactive sp.nalpha sp.nbeta) (hM : maxIdx es ≤ M) {f : FciData} {j : AsciJob}
    (h : readJob env input = .ok (.ci, .asci, sp, o, f)) (hj : asciJob env sp o f = .ok j) (h0 : 0 ≤ o.ci.matelTol)
    (hm : o.ci.maxSub ≠ 0) (hmin : re.P ≤ o.asci.ntdetsMin) (hmax : re.P ≤ o.asci.ntdetsMax)
    (h64 : o.asci.ntdetsMax < 2 ^ 64) (hd : j.dets.length < 2 ^ 64) (garbage garbage' : Nat → Nat → Nat → Nat → ℝ)
    (mem : Nat → AsciMem 32) (fuel rounds : Nat) (hf : re.P * 2 ^ (2 * 32) < fuel) {E : ℝ} {w : List (BitVec (2 * 32))}
    {X : List ℝ} (hok : asciPhases (jointEnv (rankPar env re o sp.nactive)) o.asci rounds j = .ok (E, w, X)) :
    ∃ (st : Nat → AsciMem 32) (eCI : ℝ), AlwaysEnds (jobWorld (rankPar env re o sp.nactive) j fuel rounds garbage garbage' mem) st ∧
      (∀ r < re.P, (st r).err = false ∧ (st r).thrown = false ∧
        ∀ out, rankEnd env sp o j r (st r).E0 (st r).wfn (st r).X = .ok out → out.eCI = eCI) ∧
      ∃ (full : List (BitVec (2 * M))) (ψ : Nat → ℝ), full.Nodup ∧ o.asci.ntdetsMax ≤ full.length ∧
        (∀ s ∈ full, CasDet sp.ninactive sp.nactive sp.nalpha sp.nbeta s) ∧
        (∑ i ∈ range full.length, ψ i * ψ i) = 1 ∧
        |eCI - (fileCore es + energyOf (fileInts es) full ψ)| ≤ o.ci.matelTol * full.length ∧
        ∀ s ∈ full, eCI ≤ fileCore es + hamiltonian (fileInts es) s s + o.ci.matelTol := by
  obtain ⟨-, -, -, -, -, -, -, -, s3, hab⟩ := job_reads ha h
  obtain ⟨st, h1, h2⟩ := (C166_all_ranks_partial hs he hr hP h hj h0 hm hmin hmax h64 hd garbage garbage' mem fuel rounds hf).1 E w X hok
  refine ⟨st, E + (j.eInactive + j.f.core), h1, fun r hr' => ⟨(h2 r hr').1, (h2 r hr').2.1, fun out ho => ?_⟩, ?_⟩
  · rw [(h2 r hr').2.2.1] at ho
    unfold rankEnd at ho
    obtain ⟨wo, -, ho⟩ := out_bind_ok ho
    cases ho
    rfl
  · exact job_energy ha hg hrot hα hfile h0 hM h hj
      (jointEnv_good (a := rankPar env re o sp.nactive) (rankPar_behaves hs he hr o sp.nactive) hs.idx hl hP hr.partC hr.sortC s3 h0
        hα (hab ▸ hα) hlev hroom (syev := env.syev) rfl fun e => absurd (hrot.symm.trans e) (by decide)) hok

/-- C166 (variational): with or without the MP2 guess and natural-orbital rotations, the energy printed on several ranks
is not below the core energy plus any lower bound of the Hamiltonian in the file, up to the threshold below which
Hamiltonian elements are dropped. -/
theorem C166_variational_partial {env : DriverEnv} (hs : SortsOk env) (he : EigLocal env.eig) (hl : LowestPair env.eig)
    {re : RankEnv} (hr : RanksOk re) (hP : 2 ≤ re.P) {input : List Char} {es : List (FciEntry ℝ)} {sp : Ini.Space}
    {o : DriverSettings} (ha : Asks env input es .ci .asci sp o)
    (hsy : o.mp2Guess = true ∨ o.asci.growWithRot = true → SyevSpec env.syev) (hα : sp.nalpha ≤ sp.nactive)
    (hlev : 3 + o.contrib.constraintLevel ≤ sp.nalpha)
    (hroom : RoomFor (rankPar env re o sp.nactive) sp.nalpha sp.nbeta)
    (hfile : GuessFile env o sp.nactive sp.nalpha sp.nbeta) (hM : maxIdx es ≤ M) {mu : ℝ}
    (hmu : IsLowerBound M (fileInts es) (sp.ninactive + sp.nalpha) (sp.ninactive + sp.nbeta) mu) {f : FciData} {j : AsciJob}
    (h : readJob env input = .ok (.ci, .asci, sp, o, f)) (hj : asciJob env sp o f = .ok j) (h0 : 0 ≤ o.ci.matelTol)
    (hm : o.ci.maxSub ≠ 0) (hmin : re.P ≤ o.asci.ntdetsMin) (hmax : re.P ≤ o.asci.ntdetsMax)
    (h64 : o.asci.ntdetsMax < 2 ^ 64) (hd : j.dets.length < 2 ^ 64) (garbage garbage' : Nat → Nat → Nat → Nat → ℝ)
    (mem : Nat → AsciMem 32) (fuel rounds : Nat) (hf : re.P * 2 ^ (2 * 32) < fuel) {E : ℝ} {w : List (BitVec (2 * 32))}
    {X : List ℝ} (hok : asciPhases (jointEnv (rankPar env re o sp.nactive)) o.asci rounds j = .ok (E, w, X)) :
    ∃ (st : Nat → AsciMem 32), AlwaysEnds (jobWorld (rankPar env re o sp.nactive) j fuel rounds garbage garbage' mem) st ∧
      ∀ r < re.P, (st r).err = false ∧ (st r).thrown = false ∧
        ∀ out, rankEnd env sp o j r (st r).E0 (st r).wfn (st r).X = .ok out →
          fileCore es + mu ≤
            out.eCI + o.ci.matelTol * (sp.nactive.choose sp.nalpha * sp.nactive.choose sp.nbeta : Nat) := by
  obtain ⟨-, -, -, -, -, -, -, -, s3, hab⟩ := job_reads ha h
  obtain ⟨st, h1, h2⟩ := (C166_all_ranks_partial hs he hr hP h hj h0 hm hmin hmax h64 hd garbage garbage' mem fuel rounds hf).1 E w X hok
  refine ⟨st, h1, fun r hr' => ⟨(h2 r hr').1, (h2 r hr').2.1, fun out ho => ?_⟩⟩
  rw [(h2 r hr').2.2.1] at ho
  unfold rankEnd at ho
  obtain ⟨wo, -, ho⟩ := out_bind_ok ho
  cases ho
  exact job_variational ha (fun e => hsy (Or.inl e)) hα hfile h0 hM hmu h hj
      (jointEnv_good (a := rankPar env re o sp.nactive) (rankPar_behaves hs he hr o sp.nactive) hs.idx hl hP hr.partC hr.sortC s3 h0
        hα (hab ▸ hα) hlev hroom (syev := env.syev) rfl fun e => hsy (Or.inr e)) hok

end Macis
