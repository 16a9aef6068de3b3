import Verif.Model.SpConv
import Verif.Lemmas.Pack
import Verif.Spec.Sparse
namespace Macis
open Spec
variable {R : Type}

/-- counting entries of a column -/
def colCnt (E : List (Nat × Nat × R)) (c : Nat) : Nat := E.countP fun e => e.2.1 == c

def scatterE (st : ScatterState R) (e : Nat × Nat × R) : ScatterState R :=
  { Bp := store st.Bp e.2.1 (st.Bp e.2.1 + 1)
    Bi := store st.Bi (st.Bp e.2.1) e.1
    Bz := store st.Bz (st.Bp e.2.1) e.2.2 }

theorem colCnt_append (E F : List (Nat × Nat × R)) (c : Nat) :
    colCnt (E ++ F) c = colCnt E c + colCnt F c := List.countP_append

theorem scatter_spec (N : Nat) (st0 : ScatterState R) (E : List (Nat × Nat × R))
    (hdisj : ∀ c c', c < c' → c' < N → st0.Bp c + colCnt E c ≤ st0.Bp c')
    (hcol : ∀ e ∈ E, e.2.1 < N) :
    (∀ c, (E.foldl scatterE st0).Bp c = st0.Bp c + colCnt E c) ∧
    ∀ k (h : k < E.length),
      (E.foldl scatterE st0).Bi (st0.Bp E[k].2.1 + colCnt (E.take k) E[k].2.1) = E[k].1 ∧
      (E.foldl scatterE st0).Bz (st0.Bp E[k].2.1 + colCnt (E.take k) E[k].2.1) = E[k].2.2 := by
  induction E using List.reverseRecOn with
  | nil => simp [colCnt]
  | append_singleton E e ih =>
    have hd' : ∀ c c', c < c' → c' < N → st0.Bp c + colCnt E c ≤ st0.Bp c' := by
      intro c c' h1 h2
      have := hdisj c c' h1 h2
      rw [colCnt_append] at this; omega
    obtain ⟨ih1, ih2⟩ := ih hd' (fun x hx => hcol x (List.mem_append_left _ hx))
    have hecol := hcol e (by simp)
    rw [List.foldl_append]
    simp only [List.foldl_cons, List.foldl_nil]
    generalize E.foldl scatterE st0 = s at ih1 ih2 ⊢
    constructor
    · intro c
      rw [colCnt_append]
      unfold scatterE store
      dsimp only
      by_cases hc : c = e.2.1
      · subst hc; simp [ih1, colCnt]; omega
      · have hc' : ¬ e.2.1 = c := fun h => hc h.symm
        simp [hc, hc', ih1, colCnt]
    · intro k hk
      rw [List.length_append, List.length_singleton] at hk
      rcases Nat.lt_or_ge k E.length with h | h
      · have e1 : (E ++ [e])[k] = E[k] := List.getElem_append_left h
        rw [e1, List.take_append_of_le_length h.le]
        obtain ⟨a, b⟩ := ih2 k h
        have hne : st0.Bp E[k].2.1 + colCnt (E.take k) E[k].2.1
            ≠ s.Bp e.2.1 := by
          rw [ih1]
          have hlt : colCnt (E.take k) E[k].2.1 < colCnt E E[k].2.1 := by
            generalize hc : E[k].2.1 = c
            have h5 : E = E.take k ++ (E[k] :: E.drop (k + 1)) := by simp
            have h6 := congrArg (fun l => colCnt l c) h5
            rw [colCnt_append] at h6
            rw [h6]
            have : 0 < colCnt (E[k] :: E.drop (k + 1)) c := by
              unfold colCnt
              rw [List.countP_cons, if_pos (by simpa using hc)]; omega
            omega
          have hkcol := hcol E[k] (List.mem_append_left _ (List.getElem_mem h))
          rcases Nat.lt_trichotomy E[k].2.1 e.2.1 with h' | h' | h'
          · have := hd' _ _ h' hecol; omega
          · rw [h'] at hlt ⊢; omega
          · have := hdisj _ _ h' hkcol
            have h1 : colCnt (E ++ [e]) e.2.1 = colCnt E e.2.1 + 1 := by
              rw [colCnt_append]; simp [colCnt]
            omega
        unfold scatterE store
        dsimp only
        rw [if_neg hne, if_neg hne]
        exact ⟨a, b⟩
      · have hk' : k = E.length := by omega
        subst hk'
        have e1 : (E ++ [e])[E.length] = e := by simp
        rw [e1, List.take_left, ← ih1]
        unfold scatterE store
        simp

theorem exists_take_filter {α : Type} (p : α → Bool) (l : List α) :
    ∀ t (ht : t < (l.filter p).length), ∃ k, ∃ hk : k < l.length, l[k] = (l.filter p)[t] ∧
      (l.take k).countP p = t := by
  induction l with
  | nil => intro t ht; simp at ht
  | cons a l ih =>
    intro t ht
    by_cases ha : p a
    · simp only [List.filter_cons, ha, if_true] at ht ⊢
      cases t with
      | zero => exact ⟨0, by simp, by simp, by simp⟩
      | succ t =>
        obtain ⟨k, hk, h1, h2⟩ := ih t (by simpa using ht)
        refine ⟨k + 1, by simpa using hk, ?_, ?_⟩
        · simpa using h1
        · simp [List.countP_cons, ha, h2]
    · simp only [List.filter_cons, ha] at ht ⊢
      obtain ⟨k, hk, h1, h2⟩ := ih t (by simpa using ht)
      refine ⟨k + 1, by simpa using hk, ?_, ?_⟩
      · simpa using h1
      · simp [ha, h2]

/-- cumulative counts -/
def colStart (E : List (Nat × Nat × R)) (c : Nat) : Nat := ((List.range c).map (colCnt E)).sum

theorem colStart_succ (E : List (Nat × Nat × R)) (c : Nat) :
    colStart E (c + 1) = colStart E c + colCnt E c := by
  simp [colStart, List.range_succ]

theorem colStart_mono (E : List (Nat × Nat × R)) {a b : Nat} (h : a ≤ b) :
    colStart E a ≤ colStart E b := by
  induction b with
  | zero => simp [Nat.le_zero.1 h]
  | succ b ih =>
    rcases Nat.lt_or_ge a (b + 1) with h' | h'
    · have := ih (by omega); rw [colStart_succ]; omega
    · have : a = b + 1 := by omega
      subst this; exact le_rfl

theorem colStart_total (N : Nat) (E : List (Nat × Nat × R)) (hcol : ∀ e ∈ E, e.2.1 < N) :
    colStart E N = E.length := by
  induction E with
  | nil =>
    have : ∀ n, colStart ([] : List (Nat × Nat × R)) n = 0 := by
      intro n; induction n with
      | zero => rfl
      | succ n ih => rw [colStart_succ, ih]; rfl
    exact this N
  | cons e E ih =>
    have key : ∀ n, colStart (e :: E) n = colStart E n + if e.2.1 < n then 1 else 0 := by
      intro n
      induction n with
      | zero => simp [colStart]
      | succ n ih2 =>
        rw [colStart_succ, colStart_succ, ih2]
        unfold colCnt
        rw [List.countP_cons]
        by_cases h : e.2.1 = n
        · simp [h]
          omega
        · have : (e.2.1 < n + 1) ↔ e.2.1 < n := by omega
          simp [h, this]
          omega
    rw [key, ih (fun x hx => hcol x (List.mem_cons_of_mem _ hx)),
      if_pos (hcol e List.mem_cons_self)]
    rfl

/-- the output memory, read sequentially, lists the entries column by column, in input order inside
a column -/
theorem scatter_list (N : Nat) (st0 : ScatterState R) (E : List (Nat × Nat × R))
    (hstart : ∀ c < N, st0.Bp c = colStart E c) (hcol : ∀ e ∈ E, e.2.1 < N) :
    (List.range E.length).map (E.foldl scatterE st0).Bi
      = ((List.range N).map fun c => (E.filter fun e => e.2.1 == c).map fun e => e.1).flatten ∧
    (List.range E.length).map (E.foldl scatterE st0).Bz
      = ((List.range N).map fun c => (E.filter fun e => e.2.1 == c).map fun e => e.2.2).flatten ∧
    (∀ c < N, (E.foldl scatterE st0).Bp c = colStart E (c + 1)) := by
  obtain ⟨h1, h2⟩ := scatter_spec N st0 E (by
    intro c c' hc hc'
    rw [hstart c (by omega), hstart c' hc', ← colStart_succ]
    exact colStart_mono E hc) hcol
  have gen : ∀ {β : Type} (mem : Nat → β) (f : Nat × Nat × R → β) (z : β),
      (∀ k (h : k < E.length), mem (st0.Bp E[k].2.1 + colCnt (E.take k) E[k].2.1) = f E[k]) →
      (List.range E.length).map mem
        = ((List.range N).map fun c => (E.filter fun e => e.2.1 == c).map f).flatten := by
    intro β mem f z hm
    have hfs := flatten_slices ((List.range E.length).map mem) (colStart E) rfl N
      (fun i _ => colStart_mono E (by omega))
    rw [colStart_total N E hcol, List.take_of_length_le (by simp)] at hfs
    rw [← hfs]
    congr 1
    apply List.map_congr_left
    intro c hc
    rw [List.mem_range] at hc
    have hle : colStart E (c + 1) ≤ E.length := by
      rw [← colStart_total N E hcol]; exact colStart_mono E hc
    rw [colStart_succ] at hle
    rw [colStart_succ, Nat.add_sub_cancel_left]
    apply List.ext_getElem
    · simp [colCnt, List.countP_eq_length_filter] at hle ⊢; omega
    · intro t ht ht'
      simp only [List.getElem_take, List.getElem_drop, List.getElem_map, List.getElem_range]
      rw [List.length_map] at ht'
      obtain ⟨k, hk, e1, e2⟩ := exists_take_filter (fun e : Nat × Nat × R => e.2.1 == c) E t ht'
      have hp : (fun e : Nat × Nat × R => e.2.1 == c) (E.filter fun e => e.2.1 == c)[t] :=
        (List.mem_filter.1 (List.getElem_mem ht')).2
      rw [← e1] at hp
      have hp' : E[k].2.1 = c := by simpa using hp
      have := hm k hk
      rw [hp', hstart c hc] at this
      unfold colCnt at this
      rw [e2] at this
      rw [this, e1]
  refine ⟨?_, ?_, ?_⟩
  · by_cases hE : E = []
    · subst hE; simp
    · exact gen _ _ 0 (fun k h => (h2 k h).1)
  · rcases E with _ | ⟨e, E⟩
    · simp
    · exact gen _ _ e.2.2 (fun k h => (h2 k h).2)
  · intro c hc
    rw [h1, hstart c hc, colStart_succ]

theorem cscCounts_spec (idx nnz : Nat) (Ai : List Nat) (c : Nat) :
    cscCounts idx nnz Ai c = (List.range nnz).countP fun i => Ai.getD i 0 - idx == c := by
  unfold cscCounts
  induction nnz with
  | zero => simp
  | succ n ih =>
    rw [List.range_succ, List.foldl_append, List.countP_append]
    simp only [List.foldl_cons, List.foldl_nil]
    unfold store at ih ⊢
    by_cases h : c = Ai.getD n 0 - idx
    · subst h
      simp only [if_true]
      rw [ih]; simp
    · rw [if_neg h, ih]
      have h' : (Ai.getD n 0 - idx == c) = false := by
        rw [beq_eq_false_iff_ne]; exact fun x => h x.symm
      rw [List.countP_singleton, h']; rfl

theorem cscCumsum_spec (N : Nat) (Bp : Nat → Nat) :
    (cscCumsum N Bp).2 = ((List.range N).map Bp).sum ∧
    (∀ c < N, (cscCumsum N Bp).1 c = ((List.range c).map Bp).sum) ∧
    (∀ c, N ≤ c → (cscCumsum N Bp).1 c = Bp c) := by
  unfold cscCumsum
  induction N with
  | zero => simp
  | succ n ih =>
    rw [List.range_succ, List.foldl_append]
    obtain ⟨i1, i2, i3⟩ := ih
    simp only [List.foldl_cons, List.foldl_nil]
    refine ⟨?_, ?_, ?_⟩
    · rw [i1, i3 n le_rfl]; simp
    · intro c hc
      unfold store
      by_cases h : c = n
      · subst h; simp only [if_true]; exact i1
      · rw [if_neg h]; exact i2 c (by omega)
    · intro c hc
      unfold store
      rw [if_neg (by omega)]; exact i3 c (by omega)

theorem swapShift_spec (N : Nat) (Bp : Nat → Nat) :
    (∀ c < N, swapShift N Bp c = if c = 0 then 0 else Bp (c - 1)) ∧
    (∀ c, N ≤ c → swapShift N Bp c = Bp c) := by
  unfold swapShift
  suffices h : ∀ N, ((List.range N).foldl (fun (st : (Nat → Nat) × Nat) j =>
      (store st.1 j st.2, st.1 j)) (Bp, 0)).2 = (if N = 0 then 0 else Bp (N - 1)) ∧
      (∀ c < N, ((List.range N).foldl (fun (st : (Nat → Nat) × Nat) j =>
      (store st.1 j st.2, st.1 j)) (Bp, 0)).1 c = if c = 0 then 0 else Bp (c - 1)) ∧
      (∀ c, N ≤ c → ((List.range N).foldl (fun (st : (Nat → Nat) × Nat) j =>
      (store st.1 j st.2, st.1 j)) (Bp, 0)).1 c = Bp c) from (h N).2
  intro N
  induction N with
  | zero => simp
  | succ n ih =>
    rw [List.range_succ, List.foldl_append]
    obtain ⟨i1, i2, i3⟩ := ih
    simp only [List.foldl_cons, List.foldl_nil]
    refine ⟨?_, ?_, ?_⟩
    · simp [i3 n le_rfl]
    · intro c hc
      unfold store
      by_cases h : c = n
      · subst h; simp only [if_true]; exact i1
      · rw [if_neg h]; exact i2 c (by omega)
    · intro c hc
      unfold store
      rw [if_neg (by omega)]; exact i3 c (by omega)

/-- all stored entries of a CSR matrix as `(row, column, value)`, zero based -/
def csrEntries [Zero R] (B : Csr R) : List (Nat × Nat × R) :=
  (List.range B.m).flatMap fun i => (B.row i).map fun p => (i, p.1 - B.indexing, p.2)

theorem csrPositions_map [Zero R] {B : Csr R} (h : CsrWF B) :
    (csrPositions B.indexing B.m B.rowptr).map
      (fun ij => (ij.1, B.colind.getD ij.2 0 - B.indexing, B.nzval.getD ij.2 0)) = csrEntries B := by
  unfold csrPositions csrEntries
  rw [List.map_flatMap]
  apply List.flatMap_congr
  intro i hi
  rw [List.mem_range] at hi
  rw [Csr.row_eq h hi, List.map_map, List.map_map, List.range'_eq_map_range, List.map_map]
  have h1 := CsrWFL.ge_idx h (i := i) (by omega)
  have h3 := h.rowptr_mono i hi
  have : B.rowptr.getD (i + 1) 0 - B.indexing - (B.rowptr.getD i 0 - B.indexing)
      = B.rp (i + 1) - B.rp i := by unfold Csr.rp; omega
  rw [this]
  rfl

theorem csrPositions_snd [Zero R] {B : Csr R} (h : CsrWF B) :
    (csrPositions B.indexing B.m B.rowptr).map Prod.snd = List.range B.nzval.length := by
  have hfs := flatten_slices (List.range B.nzval.length) (fun i => B.rowptr.getD i 0 - B.indexing)
    (by rw [h.rowptr_first]; omega) B.m (fun i hi => by
      have := h.rowptr_mono i hi; omega)
  rw [h.rowptr_last, Nat.add_sub_cancel_left, List.take_of_length_le (by simp)] at hfs
  rw [← hfs]
  unfold csrPositions
  rw [List.map_flatMap, List.flatMap_def]
  congr 1
  apply List.map_congr_left
  intro i hi
  rw [List.mem_range] at hi
  have h1 := CsrWFL.ge_idx h (i := i) (by omega)
  have h2 := CsrWFL.le_last h (i := i + 1) (by omega)
  have h3 := h.rowptr_mono i hi
  rw [List.map_map]
  generalize B.rowptr.getD i 0 = a at h1 h2 h3 ⊢
  generalize B.rowptr.getD (i + 1) 0 = b at h1 h2 h3 ⊢
  apply List.ext_getElem
  · simp; omega
  · intro k hk hk'
    simp

theorem csrEntries_length [Zero R] {B : Csr R} (h : CsrWF B) :
    (csrEntries B).length = B.nzval.length := by
  rw [← csrPositions_map h, List.length_map, ← List.length_map (f := Prod.snd), csrPositions_snd h,
    List.length_range]

theorem csrEntries_cols [Zero R] {B : Csr R} (h : CsrWF B) :
    (csrEntries B).map (fun e => e.2.1)
      = (List.range B.nzval.length).map fun k => B.colind.getD k 0 - B.indexing := by
  rw [← csrPositions_map h, List.map_map, ← csrPositions_snd h, List.map_map]
  rfl

theorem csrEntries_col_lt [Zero R] {B : Csr R} (h : CsrWF B) :
    ∀ e ∈ csrEntries B, e.2.1 < B.n := by
  intro e he
  simp only [csrEntries, List.mem_flatMap, List.mem_range, List.mem_map] at he
  obtain ⟨i, hi, p, hp, rfl⟩ := he
  have := row_col_range h hi hp
  dsimp only; omega

/-- the rows of the transposed matrix produced by the counting sort -/
def transRows [Zero R] (B : Csr R) : List (List (Nat × R)) :=
  (List.range B.n).map fun c =>
    ((csrEntries B).filter fun e => e.2.1 == c).map fun e => (e.1 + B.indexing, e.2.2)

theorem csrToCsc_spec [Zero R] {B : Csr R} (h : CsrWF B) (B0 : ScatterState R) :
    let S := csrToCsc B.m B.n B.rowptr B.colind (fun k => B.nzval.getD k 0) B.indexing B0
    ({ m := B.n, n := B.m, indexing := B.indexing
       rowptr := (List.range (B.n + 1)).map S.Bp
       colind := (List.range B.nzval.length).map S.Bi
       nzval := (List.range B.nzval.length).map S.Bz } : Csr R)
      = csrOfRows B.n B.m B.indexing (transRows B) := by
  intro S
  have hnnz : B.rowptr.getD B.m 0 - B.indexing = B.nzval.length := by
    rw [h.rowptr_last, Nat.add_sub_cancel_left]
  have hcnt : ∀ c, cscCounts B.indexing B.nzval.length B.colind c = colCnt (csrEntries B) c := by
    intro c
    rw [cscCounts_spec]
    unfold colCnt
    have e1 : (csrEntries B).countP (fun e => e.2.1 == c)
        = ((csrEntries B).map (fun e => e.2.1)).countP (fun x => x == c) := by
      rw [List.countP_map]; rfl
    rw [e1, csrEntries_cols h, List.countP_map]
    rfl
  have hcum : ∀ c < B.n, (cscCumsum B.n (cscCounts B.indexing B.nzval.length B.colind)).1 c
      = colStart (csrEntries B) c := by
    intro c hc
    rw [(cscCumsum_spec _ _).2.1 c hc]
    unfold colStart
    congr 1
    exact List.map_congr_left fun x _ => hcnt x
  set st0 : ScatterState R := { B0 with
    Bp := store (cscCumsum B.n (cscCounts B.indexing B.nzval.length B.colind)).1 B.n B.nzval.length }
    with hst0
  have hfold : (csrPositions B.indexing B.m B.rowptr).foldl
      (scatterStep B.indexing B.colind fun k => B.nzval.getD k 0) st0
      = (csrEntries B).foldl scatterE st0 := by
    rw [← csrPositions_map h, List.foldl_map]
    rfl
  have hlen := csrEntries_length h
  have hcl := csrEntries_col_lt h
  obtain ⟨s1, s2, s3⟩ := scatter_list B.n st0 (csrEntries B) (by
    intro c hc
    show store _ _ _ c = _
    unfold store
    rw [if_neg (by omega)]
    exact hcum c hc) hcl
  have hlast : ((csrEntries B).foldl scatterE st0).Bp B.n = B.nzval.length := by
    have := (scatter_spec B.n st0 (csrEntries B) (by
      intro c c' hc hc'
      have a1 : st0.Bp c = colStart (csrEntries B) c := by
        show store _ _ _ c = _
        unfold store
        rw [if_neg (by omega)]
        exact hcum c (by omega)
      have a2 : st0.Bp c' = colStart (csrEntries B) c' := by
        show store _ _ _ c' = _
        unfold store
        rw [if_neg (by omega)]
        exact hcum c' hc'
      rw [a1, a2, ← colStart_succ]
      exact colStart_mono _ hc) hcl).1 B.n
    rw [this]
    have z : colCnt (csrEntries B) B.n = 0 := by
      unfold colCnt
      rw [List.countP_eq_zero]
      intro e he
      have := hcl e he
      simp; omega
    rw [z]
    show store _ _ _ B.n + 0 = _
    unfold store
    simp
  have hS : S = { Bp := fun j => swapShift B.n ((csrEntries B).foldl scatterE st0).Bp j + B.indexing
                  Bi := fun i => ((csrEntries B).foldl scatterE st0).Bi i + B.indexing
                  Bz := ((csrEntries B).foldl scatterE st0).Bz } := by
    show csrToCsc _ _ _ _ _ _ _ = _
    unfold csrToCsc
    dsimp only
    rw [hnnz, hfold]
  have hBp : ∀ c ≤ B.n, S.Bp c = colStart (csrEntries B) c + B.indexing := by
    intro c hc
    rw [hS]
    dsimp only
    congr 1
    rcases Nat.lt_or_ge c B.n with hlt | hge
    · rw [(swapShift_spec _ _).1 c hlt]
      split
      · rename_i h0; subst h0; rfl
      · rename_i h0
        rw [s3 (c - 1) (by omega), Nat.sub_add_cancel (by omega)]
    · have : c = B.n := by omega
      subst this
      rw [(swapShift_spec _ _).2 _ le_rfl, hlast, colStart_total _ _ hcl, hlen]
  have hrows : ∀ c, ((transRows B).take c).map List.length
      = (List.range (min c B.n)).map (colCnt (csrEntries B)) := by
    intro c
    unfold transRows
    rw [← List.map_take, List.map_map, List.take_range]
    apply List.map_congr_left
    intro x _
    simp only [Function.comp, List.length_map, colCnt, List.countP_eq_length_filter]
  unfold csrOfRows
  congr 1
  · apply List.map_congr_left
    intro c hc
    rw [List.mem_range] at hc
    rw [hBp c (by omega), hrows, Nat.min_eq_left (by omega), Nat.add_comm]
    rfl
  · have hBi : ∀ k, S.Bi k = ((csrEntries B).foldl scatterE st0).Bi k + B.indexing := by
      intro k
      rw [hS]
    have e1 : (List.range B.nzval.length).map S.Bi
        = ((List.range (csrEntries B).length).map
            ((csrEntries B).foldl scatterE st0).Bi).map (· + B.indexing) := by
      rw [hlen, List.map_map]
      exact List.map_congr_left fun k _ => hBi k
    rw [e1, s1, List.map_flatten, List.map_flatten]
    unfold transRows
    simp only [List.map_map, Function.comp_def]
  · have hBz : S.Bz = ((csrEntries B).foldl scatterE st0).Bz := by
      rw [hS]
    rw [hBz, ← hlen, s2, List.map_flatten]
    unfold transRows
    simp only [List.map_map, Function.comp_def]

theorem sum_ite_filter {α : Type} [AddCommMonoid R] (l : List α) (p q : α → Prop)
    [DecidablePred p] [DecidablePred q] (f : α → R) :
    ((l.filter fun a => decide (p a)).map fun a => if q a then f a else 0).sum
      = (l.map fun a => if p a ∧ q a then f a else 0).sum := by
  induction l with
  | nil => simp
  | cons a l ih =>
    by_cases hp : p a
    · simp [hp, ih]
    · simp [hp, ih]

theorem csrEntries_sum [AddCommMonoid R] {B : Csr R} (h : CsrWF B) {i : Nat} (hi : i < B.m)
    (j : Nat) :
    ((csrEntries B).map fun e => if e.1 = i ∧ e.2.1 = j then e.2.2 else 0).sum = csrEntry B i j := by
  rw [csrEntry_eq h hi]
  unfold csrEntries
  rw [List.map_flatMap, List.flatMap_def, List.sum_flatten, List.map_map]
  have e2 : ∀ i' ∈ List.range B.m, (((B.row i').map fun p => (i', p.1 - B.indexing, p.2)).map
      fun a => if a.1 = i ∧ a.2.1 = j then a.2.2 else 0).sum
      = if i' = i then ((B.row i).map fun p => if p.1 = j + B.indexing then p.2 else 0).sum else 0 := by
    intro i' hi'
    rw [List.mem_range] at hi'
    rw [List.map_map]
    split
    · rename_i he
      subst he
      congr 1
      apply List.map_congr_left
      intro p hp
      have := row_col_range h hi' hp
      dsimp only [Function.comp]
      have : (p.1 - B.indexing = j) ↔ p.1 = j + B.indexing := by
        omega
      simp only [this, true_and]
    · rename_i hne
      apply List.sum_eq_zero
      intro x hx
      rw [List.mem_map] at hx
      obtain ⟨p, -, rfl⟩ := hx
      dsimp only [Function.comp]
      rw [if_neg (by omega)]
  refine (congrArg List.sum (List.map_congr_left e2)).trans ?_
  rw [sum_map_range, Finset.sum_ite_eq']
  simp [hi]

theorem transRows_range [Zero R] {B : Csr R} :
    ∀ r ∈ transRows B, ∀ p ∈ r, B.indexing ≤ p.1 ∧ p.1 < B.indexing + B.m := by
  intro r hr p hp
  simp only [transRows, List.mem_map, List.mem_range] at hr
  obtain ⟨c, hc, rfl⟩ := hr
  simp only [List.mem_map, List.mem_filter] at hp
  obtain ⟨e, ⟨he, -⟩, rfl⟩ := hp
  simp only [csrEntries, List.mem_flatMap, List.mem_range, List.mem_map] at he
  obtain ⟨i', hi', p', -, rfl⟩ := he
  dsimp only; omega

theorem transRows_entry [AddCommMonoid R] {B : Csr R} (h : CsrWF B) {i j : Nat} (hi : i < B.n)
    (hj : j < B.m) : csrEntry (csrOfRows B.n B.m B.indexing (transRows B)) i j = csrEntry B j i := by
  have hm : (transRows B).length = B.n := by simp [transRows]
  rw [csrOfRows_entry hm transRows_range hi]
  simp only [transRows, List.getElem_map, List.getElem_range, List.map_map, Function.comp_def]
  have e1 : (fun e : Nat × Nat × R => e.2.1 == i) = fun e => decide (e.2.1 = i) := by
    funext e; rfl
  rw [e1, sum_ite_filter, ← csrEntries_sum h hj]
  congr 1
  apply List.map_congr_left
  intro e _
  have : (e.2.1 = i ∧ e.1 + B.indexing = j + B.indexing) ↔ (e.1 = j ∧ e.2.1 = i) := by omega
  simp only [this]

/-! ### COO → CSR / CSC pointers -/

theorem isSorted_iff (l : List Nat) : isSorted l = true ↔ l.Pairwise (· ≤ ·) := by
  induction l with
  | nil => simp [isSorted]
  | cons a l ih =>
    cases l with
    | nil => simp [isSorted]
    | cons b l =>
      rw [isSorted, Bool.and_eq_true, ih, decide_eq_true_eq]
      constructor
      · rintro ⟨h1, h2⟩
        refine List.pairwise_cons.2 ⟨?_, h2⟩
        intro x hx
        rcases List.mem_cons.1 hx with rfl | hx
        · exact h1
        · exact le_trans h1 ((List.pairwise_cons.1 h2).1 x hx)
      · intro h
        exact ⟨(List.pairwise_cons.1 h).1 b (by simp), (List.pairwise_cons.1 h).2⟩

theorem sorted_countP (l : List Nat) (hs : l.Pairwise (· ≤ ·)) (v : Nat) :
    ∀ k (hk : k < l.length), k < l.countP (fun x => decide (x < v)) ↔ l[k] < v := by
  induction l with
  | nil => intro k hk; simp at hk
  | cons a l ih =>
    obtain ⟨h1, h2⟩ := List.pairwise_cons.1 hs
    intro k hk
    rw [List.countP_cons]
    by_cases ha : a < v
    · simp only [ha, decide_true, if_true]
      cases k with
      | zero => simp [ha]
      | succ k =>
        have := ih h2 k (by simpa using hk)
        rw [List.getElem_cons_succ, ← this]; omega
    · have hz : l.countP (fun x => decide (x < v)) = 0 := by
        rw [List.countP_eq_zero]
        intro x hx
        have := h1 x hx
        simp; omega
      simp only [ha, decide_false, hz]
      constructor
      · intro h; simp at h
      · intro h
        exfalso
        cases k with
        | zero => simp at h; omega
        | succ k =>
          have := h1 _ (List.getElem_mem (by simpa using hk : k < l.length))
          simp at h; omega

theorem cooPtrLoop_spec (idx d : Nat) (ind : List Nat) (hs : ind.Pairwise (· ≤ ·))
    (hr : ∀ x ∈ ind, idx ≤ x ∧ x < idx + d) (hne : ∀ r, 1 ≤ r → r < d → r + idx ∈ ind) :
    ∃ ptr cur, cooPtrLoop idx ind ((List.replicate (d + 1) 0).set 0 idx) = some (ptr, cur) ∧
      ptr.length = d + 1 ∧
      ∀ r < max d 1, ptr.getD r 0 = idx + ind.countP (fun x => decide (x < r + idx)) := by
  unfold cooPtrLoop
  have key : ∀ n ≤ ind.length, ∃ ptr cur, (List.range n).foldlM (fun (st : List Nat × Nat) i =>
      if ind.getD i 0 ≠ st.2 + idx then
        if st.2 + 1 < st.1.length then some (st.1.set (st.2 + 1) (i + idx), st.2 + 1) else none
      else some st) ((List.replicate (d + 1) 0).set 0 idx, 0) = some (ptr, cur) ∧
      ptr.length = d + 1 ∧ cur < max d 1 ∧
      (∀ r ≤ cur, ptr.getD r 0 = idx + ind.countP (fun x => decide (x < r + idx))) ∧
      (∀ k (hk : k < n) (hk' : k < ind.length), ind[k] ≤ cur + idx) ∧
      (0 < cur → ∃ k, ∃ (hk : k < n) (hk' : k < ind.length), ind[k] = cur + idx) := by
    intro n
    induction n with
    | zero =>
      intro _
      refine ⟨(List.replicate (d + 1) 0).set 0 idx, 0, by simp, by simp, by omega, ?_, ?_, ?_⟩
      · intro r hr0
        have : r = 0 := by omega
        subst this
        have hz : ind.countP (fun x => decide (x < 0 + idx)) = 0 := by
          rw [List.countP_eq_zero]
          intro x hx
          have := hr x hx
          simp; omega
        rw [hz]
        simp
      · intro k hk; omega
      · intro h; omega
    | succ n ih =>
      intro hn
      obtain ⟨ptr, cur, he, hl, hc, hp, hle, hex⟩ := ih (by omega)
      rw [List.range_succ, List.foldlM_append, he]
      simp only [Option.bind_eq_bind, Option.bind_some, List.foldlM_cons, List.foldlM_nil]
      have hnl : n < ind.length := by omega
      rw [List.getD_eq_getElem _ _ hnl]
      have hin := hr _ (List.getElem_mem hnl)
      by_cases hcase : ind[n] = cur + idx
      · refine ⟨ptr, cur, ?_, hl, hc, hp, ?_, ?_⟩
        · simp [hcase]
        · intro k hk hk'
          rcases Nat.lt_or_ge k n with h | h
          · exact hle k h hk'
          · have : k = n := by omega
            subst this; omega
        · intro h; exact ⟨n, by omega, hnl, hcase⟩
      · -- previous row is not larger
        have hge : cur + idx ≤ ind[n] := by
          rcases Nat.eq_zero_or_pos cur with h0 | h0
          · omega
          · obtain ⟨k, hk, hk', e⟩ := hex h0
            have := List.pairwise_iff_getElem.1 hs k n hk' hnl hk
            omega
        have hlt : cur + 1 < d := by omega
        have hnext : ind[n] = cur + 1 + idx := by
          obtain ⟨k, hk, e⟩ := List.mem_iff_getElem.1 (hne (cur + 1) (by omega) hlt)
          rcases Nat.lt_or_ge k n with h | h
          · have := hle k h hk; omega
          · rcases Nat.eq_or_lt_of_le h with rfl | h
            · omega
            · have := List.pairwise_iff_getElem.1 hs n k hnl hk h
              omega
        have hcnt : ind.countP (fun x => decide (x < cur + 1 + idx)) = n := by
          apply Nat.le_antisymm
          · by_contra hcon
            have := (sorted_countP ind hs (cur + 1 + idx) n hnl).1 (by omega)
            omega
          · rcases Nat.eq_zero_or_pos n with h0 | h0
            · omega
            · have h1 := (sorted_countP ind hs (cur + 1 + idx) (n - 1) (by omega)).2 (by
                have := hle (n - 1) (by omega) (by omega); omega)
              omega
        refine ⟨ptr.set (cur + 1) (n + idx), cur + 1, ?_, by simp [hl], by omega, ?_, ?_, ?_⟩
        · simp [hcase, hl, show cur + 1 < d + 1 by omega]
        · intro r hr'
          rcases Nat.lt_or_ge r (cur + 1) with h | h
          · rw [List.getD_eq_getElem _ _ (by simp [hl]; omega), List.getElem_set_ne (by omega),
              ← hp r (by omega), List.getD_eq_getElem]
          · have : r = cur + 1 := by omega
            subst this
            rw [List.getD_eq_getElem _ _ (by simp [hl]; omega), List.getElem_set_self, hcnt]
            omega
        · intro k hk hk'
          rcases Nat.lt_or_ge k n with h | h
          · have := hle k h hk'; omega
          · have : k = n := by omega
            subst this; omega
        · intro _; exact ⟨n, by omega, hnl, hnext⟩
  obtain ⟨ptr, cur, he, hl, hc, hp, hle, -⟩ := key ind.length le_rfl
  refine ⟨ptr, cur, he, hl, ?_⟩
  intro r hr'
  apply hp
  rcases Nat.lt_or_ge cur r with h | h
  · exfalso
    obtain ⟨k, hk, e⟩ := List.mem_iff_getElem.1 (hne (d - 1) (by omega) (by omega))
    have := hle k hk hk
    omega
  · exact h

end Macis
