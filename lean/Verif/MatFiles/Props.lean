import Mathlib.Tactic.Ring
import Mathlib.Tactic.NormNum
import Verif.MatFiles.Spec

/-! # Files of transition matrices (C79) -/

set_option linter.dupNamespace false
set_option linter.unusedSectionVars false
set_option linter.unusedSimpArgs false

namespace Verif.MatFiles

open Verif.Csr Verif.SparseStoch

variable {K : Type} [Field K] [LinearOrder K] [IsStrictOrderedRing K] {H : Type}

/-! ## Loops over dictionaries -/

theorem mapItems_ok {A B : Type} (f : A → Except FErr B) (g : A → B) :
    ∀ l : List (K × A), (∀ q ∈ l, f q.2 = .ok (g q.2)) →
      mapItems f l = .ok (l.map fun q => (q.1, g q.2))
  | [], _ => rfl
  | (k, a) :: l, h => by
    have h1 := h (k, a) (List.mem_cons_self ..)
    have h2 := mapItems_ok f g l fun q hq => h q (List.mem_cons_of_mem _ hq)
    dsimp only at h1
    simp only [mapItems, h1, h2, List.map_cons]

theorem mapItems_error {A B : Type} (f : A → Except FErr B) (e : FErr) :
    ∀ l : List (K × A), (∀ q ∈ l, f q.2 = .error e ∨ ∃ b, f q.2 = .ok b) →
      (∃ q ∈ l, f q.2 = .error e) → mapItems f l = .error e
  | [], _, h => by obtain ⟨q, hq, _⟩ := h; simp at hq
  | (k, a) :: l, h, hex => by
    rcases h (k, a) (List.mem_cons_self ..) with h1 | ⟨b, h1⟩
    · dsimp only at h1
      simp only [mapItems, h1]
    · dsimp only at h1
      have : ∃ q ∈ l, f q.2 = .error e := by
        obtain ⟨q, hq, h2⟩ := hex
        rcases List.mem_cons.1 hq with rfl | hq
        · dsimp only at h2; rw [h1] at h2; simp at h2
        · exact ⟨q, hq, h2⟩
      have h2 := mapItems_error f e l (fun q hq => h q (List.mem_cons_of_mem _ hq)) this
      simp only [mapItems, h1, h2]

theorem mapItems_either {A B : Type} (f : A → Except FErr B) (e : FErr)
    (l : List (K × A)) (h : ∀ q ∈ l, f q.2 = .error e ∨ ∃ b, f q.2 = .ok b) :
    mapItems f l = .error e ∨ ∃ b, mapItems f l = .ok b := by
  by_cases hex : ∃ q ∈ l, f q.2 = .error e
  · exact .inl (mapItems_error f e l h hex)
  · right
    induction l with
    | nil => exact ⟨_, rfl⟩
    | cons q l ih =>
      obtain ⟨k, a⟩ := q
      rcases h (k, a) (List.mem_cons_self ..) with h1 | ⟨b, h1⟩
      · exact absurd ⟨_, List.mem_cons_self .., h1⟩ hex
      · obtain ⟨r, hr⟩ := ih (fun q hq => h q (List.mem_cons_of_mem _ hq))
          (fun ⟨q, hq, h2⟩ => hex ⟨q, List.mem_cons_of_mem _ hq, h2⟩)
        dsimp only at h1
        exact ⟨(k, b) :: r, by simp only [mapItems, h1, hr]⟩

/-- A table with every matrix replaced. -/
def tmap {A B : Type} (g : A → B) (T : Table K A) : Table K B :=
  T.map fun p => (p.1, p.2.map fun q => (q.1, g q.2))

theorem mapTable_ok {A B : Type} (f : A → Except FErr B) (g : A → B) (T : Table K A)
    (h : All (fun a => f a = .ok (g a)) T) :
    mapItems (mapItems f) T = .ok (tmap g T) :=
  mapItems_ok _ (fun l => l.map fun q => (q.1, g q.2)) T fun p hp => mapItems_ok f g p.2 (h p hp)

theorem lookup_map {A B : Type} (g : A → B) (l : List (K × A)) (s : K) :
    (l.map fun q => (q.1, g q.2)).lookup s = (l.lookup s).map g := by
  induction l with
  | nil => rfl
  | cons q l ih =>
    obtain ⟨k, a⟩ := q
    simp only [List.map_cons, List.lookup_cons]
    split
    · simp
    · exact ih

theorem get_tmap {A B : Type} (g : A → B) (T : Table K A) (l s : K) :
    get (tmap g T) l s = (get T l s).map g := by
  unfold get tmap
  rw [lookup_map (fun d : List (K × A) => d.map fun q => (q.1, g q.2)) T l]
  cases T.lookup l with
  | none => rfl
  | some d => exact lookup_map g d s

theorem tmap_tmap {A B C : Type} (g : A → B) (f : B → C) (T : Table K A) :
    tmap f (tmap g T) = tmap (fun a => f (g a)) T := by
  unfold tmap
  simp [List.map_map, Function.comp_def]

theorem all_tmap {A B : Type} (g : A → B) (P : B → Prop) (T : Table K A)
    (h : All (fun a => P (g a)) T) : All P (tmap g T) := by
  intro p hp q hq
  unfold tmap at hp
  obtain ⟨p', hp', rfl⟩ := List.mem_map.1 hp
  obtain ⟨q', hq', rfl⟩ := List.mem_map.1 hq
  exact h p' hp' q' hq'

theorem lookup_mem {A : Type} {l : List (K × A)} {s : K} {a : A} (h : l.lookup s = some a) :
    (s, a) ∈ l := by
  induction l with
  | nil => simp at h
  | cons q l ih =>
    obtain ⟨k, b⟩ := q
    rw [List.lookup_cons] at h
    split at h
    · rename_i hk
      have : s = k := by simpa using hk
      subst this
      simp only [Option.some.injEq] at h
      rw [h]; exact List.mem_cons_self ..
    · exact List.mem_cons_of_mem _ (ih h)

theorem get_mem {M : Type} {P : M → Prop} {T : Table K M} (h : All P T) {l s : K} {m : M}
    (hm : get T l s = some m) : P m := by
  unfold get at hm
  cases hl : T.lookup l with
  | none => rw [hl] at hm; simp at hm
  | some d =>
    rw [hl] at hm
    exact h _ (lookup_mem hl) _ (lookup_mem (l := d) hm)

/-- The rates asked for are there. -/
theorem selected_spec {M : Type} (T : Table K M) (lamda : Option K)
    (hl : ∀ l, lamda = some l → ∃ d, T.lookup l = some d) :
    ∃ S, selected T lamda = .ok S ∧ (∀ p ∈ S, p ∈ T) ∧
      (∀ l s, Wanted lamda l → get S l s = get T l s) ∧
      (∀ l s, ¬ Wanted lamda l → get S l s = none) := by
  unfold selected Wanted
  match lamda, hl with
  | none, _ => exact ⟨T, rfl, fun p h => h, fun l s _ => rfl, fun l s h => absurd (.inl rfl) h⟩
  | some l, hl =>
    obtain ⟨d, hd⟩ := hl l rfl
    simp only [hd]
    refine ⟨_, rfl, ?_, ?_, ?_⟩
    · intro p hp
      rw [List.mem_singleton.1 hp]
      exact lookup_mem hd
    · intro l' s h
      rcases h with h | h
      · simp at h
      · simp only [Option.some.injEq] at h
        subst h
        unfold get
        rw [hd]
        simp
    · intro l' s h
      have : ¬ l' = l := fun e => h (.inr (by rw [e]))
      have h2 : List.lookup l' [(l, d)] = none := by
        rw [List.lookup_cons, beq_eq_false_iff_ne.2 this]
        rfl
      unfold get
      rw [h2]
      rfl

/-! ## Finding the file -/

theorem put_same (d : Disk K H) (p : List Char) (f : File K H) : put d p f p = some f := by
  unfold put; simp

theorem put_other (d : Disk K H) {p q : List Char} (f : File K H) (h : q ≠ p) : put d p f q = d q := by
  unfold put; simp [h]

theorem append_ne {a b c : List Char} (h : b ≠ c) : a ++ b ≠ a ++ c := fun e =>
  h (List.append_cancel_left e)

/-- The file written is the file read. -/
theorem readFile_put (d : Disk K H) (name : List Char) (compressed : Bool) (c : Content K H)
    (hf : Fits d name compressed) :
    readFile (put d (savePath compressed name) ⟨compressed, c⟩) name = .ok c := by
  unfold Fits at hf
  unfold readFile loadPath savePath
  cases compressed with
  | false =>
    simp only [Bool.false_eq_true, if_false] at hf ⊢
    by_cases hp : ext name = ".pickle".toList
    · simp only [hp, if_true, put_same]
    · simp only [hp, hf, if_false, put_same, Option.isSome_some, if_true]
  | true =>
    simp only [if_true] at hf ⊢
    by_cases hg : ext name = ".gz".toList
    · simp only [hg, if_true, put_same, (by decide : ¬ ".gz".toList = ".pickle".toList), if_false]
    · have h1 : put d (name ++ ".gz".toList) ⟨true, c⟩ (name ++ ".pickle".toList) = none := by
        rw [put_other d _ (append_ne (by decide))]
        exact hf.2.resolve_left hg
      simp only [hf.1, hg, if_false, h1, put_same, Option.isSome_none, Option.isSome_some,
        Bool.false_eq_true, if_true]

/-! ## Matrices -/

theorem ofDict_toDict {A : SSM K} (h : A.WF) : ofDict (toDict A) = .ok A := by
  have := fromSmall_ok A.size A.small A.nz A.diag h.block h.rows h.cols h.sorted
  unfold fromSmall at this
  unfold ofDict toDict
  dsimp only
  rw [this]

theorem trim_ssm (tol : K) {A : SSM K} (h : A.WF) (hr : A.small.NoRepeats) :
    TrimmedSsm tol A (A.setToZeroes tol true false) := by
  obtain ⟨h1, h2, h3⟩ := setToZeroes_wf tol true false h.block
  refine ⟨⟨h.sorted, h.inside, h1, h2.trans h.rows, h3.trans h.cols⟩, rfl, ?_, ?_⟩
  · intro h0
    unfold SSM.setToZeroes csrSetToZeroes
    simp [h0]
  · intro h0
    obtain ⟨thr, h4, _, h5⟩ := C16_compressed_trim tol true false A h hr h0
    refine ⟨thr, h4, fun i j => ?_⟩
    rw [h5 i j]
    simp

theorem trim_csr (tol : K) {M : Csr K} (h : M.WF) (hr : M.NoRepeats) :
    TrimmedCsr tol M (csrSetToZeroes tol true false M) := by
  obtain ⟨h1, h2, h3⟩ := setToZeroes_wf tol true false h
  refine ⟨h1, h2, h3, ?_, ?_⟩
  · intro h0
    unfold csrSetToZeroes
    simp [h0]
  · intro h0
    obtain ⟨thr, h4, h5⟩ := C16_trim_exact tol true M hr h0
    exact ⟨thr, h4, fun i j hi => (h5 i j hi).2⟩

/-- The matrix that a file holds. -/
def keep (round : Option K) : Mx K → Mx K
  | .ssm A => .ssm (roundSsm round A)
  | .csr M => .csr (roundCsr round M)
  | .other => .other

/-- The matrix in the file. -/
def stored (round : Option K) : Mx K → Stored K
  | .ssm A => .dict (toDict (roundSsm round A))
  | .csr M => .csr (roundCsr round M)
  | .other => .csr ⟨0, 0, [], [], []⟩

theorem roundSsm_wf (round : Option K) {A : SSM K} (h : A.WF) : (roundSsm round A).WF := by
  cases round with
  | none => exact h
  | some tol =>
    obtain ⟨h1, h2, h3⟩ := setToZeroes_wf tol true false h.block
    exact ⟨h.sorted, h.inside, h1, h2.trans h.rows, h3.trans h.cols⟩

theorem keep_kept (round : Option K) {m : Mx K} (h : Good m) : Kept round m (keep round m) := by
  cases round with
  | none => cases m <;> rfl
  | some tol =>
    cases m with
    | ssm A => exact trim_ssm tol h.1 h.2
    | csr M => exact trim_csr tol h.1 h.2
    | other => exact h.elim

theorem storeOne_good (round : Option K) {m : Mx K} (h : Good m) :
    storeOne round m = .ok (stored round m) := by
  cases m with
  | ssm A => rfl
  | csr M => rfl
  | other => exact h.elim

theorem restore_ssm (round : Option K) {m : Mx K} (h : Good m) (hs : IsSsm m) :
    restoreOne true (stored round m) = .ok (keep round m) := by
  cases m with
  | ssm A => simp [stored, restoreOne, keep, ofDict_toDict (roundSsm_wf round h.1)]
  | csr M => exact hs.elim
  | other => exact hs.elim

theorem restore_csr (round : Option K) {m : Mx K} (h : Good m) (hs : ¬ IsSsm m) :
    restoreOne false (stored round m) = .ok (keep round m) := by
  cases m with
  | ssm A => exact absurd trivial hs
  | csr M => simp [stored, restoreOne, keep]
  | other => exact h.elim

theorem anySsm_iff (T : Table K (Mx K)) : anySsm T = true ↔ ∃ p ∈ T, ∃ q ∈ p.2, IsSsm q.2 := by
  unfold anySsm
  simp only [List.any_eq_true]
  constructor
  · rintro ⟨p, hp, q, hq, h⟩
    refine ⟨p, hp, q, hq, ?_⟩
    revert h
    cases q.2 <;> simp [IsSsm]
  · rintro ⟨p, hp, q, hq, h⟩
    refine ⟨p, hp, q, hq, ?_⟩
    revert h
    cases q.2 <;> simp [IsSsm]

/-- `save_T` on a table in order. -/
theorem saveT_ok (d : Disk K H) (h : H) (T : Table K (Mx K)) (name : List Char)
    (lamda round : Option K) (compressed : Bool) (S : Table K (Mx K))
    (hS : selected T lamda = .ok S) (hg : All Good S) (hne : ∃ p ∈ S, p.2 ≠ []) :
    saveT d h (some T) name lamda round compressed =
      .ok (put d (savePath compressed name)
        ⟨compressed, .mats h (anySsm S) (tmap (stored round) S)⟩, T) := by
  unfold saveT
  simp only [hS, mapTable_ok (storeOne round) (stored round) S
    (fun p hp q hq => storeOne_good round (hg p hp q hq))]
  rw [if_neg]
  intro h0
  obtain ⟨p, hp, hp2⟩ := hne
  have := List.all_eq_true.1 h0 p hp
  exact hp2 (List.isEmpty_iff.1 this)

/-! ## C79 -/

/-- **C79**, one matrix per rate.  Matrices in order, of one kind, saved under a name that the
loader accepts: the header and the wanted matrices are read back, each one equal to the network's
matrix, or, when rounding is asked for, to this matrix without its entries below the tolerance; no
other file changes, and the network keeps its matrices as they were. -/
theorem C79_T_partial (d : Disk K H) (h : H) (T : Table K (Mx K)) (name : List Char)
    (lamda round : Option K) (compressed : Bool) (hf : Fits d name compressed)
    (hg : All Good T) (hk : All IsSsm T ∨ All (fun m => ¬ IsSsm m) T)
    (hl : ∀ l, lamda = some l → ∃ t, T.lookup l = some t)
    (hne : ∃ l s m, Wanted lamda l ∧ get T l s = some m) :
    ∃ d' R, saveT d h (some T) name lamda round compressed = .ok (d', T) ∧
      loadT d' name = .ok (h, R) ∧
      (∀ l s, Wanted lamda l → Option.Rel (Kept round) (get T l s) (get R l s)) ∧
      (∀ l s, ¬ Wanted lamda l → get R l s = none) ∧
      ∀ q, q ≠ savePath compressed name → d' q = d q := by
  obtain ⟨S, hS, hsub, hget, hnone⟩ := selected_spec T lamda hl
  have hgS : All Good S := fun p hp => hg p (hsub p hp)
  have hneS : ∃ p ∈ S, p.2 ≠ [] := by
    obtain ⟨l, s, m, hw, hm⟩ := hne
    rw [← hget l s hw] at hm
    unfold get at hm
    cases hl' : S.lookup l with
    | none => rw [hl'] at hm; simp at hm
    | some t =>
      rw [hl'] at hm
      refine ⟨_, lookup_mem hl', ?_⟩
      dsimp only
      intro h0
      subst h0
      simp at hm
  have hsave := saveT_ok d h T name lamda round compressed S hS hgS hneS
  have hload : mapItems (mapItems (restoreOne (anySsm S))) (tmap (stored round) S) =
      .ok (tmap (keep round) S) := by
    have key : ∀ b, (All (fun m => restoreOne b (stored round m) = .ok (keep round m)) S) →
        mapItems (mapItems (restoreOne b)) (tmap (stored round) S) = .ok (tmap (keep round) S) := by
      intro b hb
      have h1 : mapItems (mapItems (restoreOne b)) (tmap (stored round) S) =
          mapItems (mapItems fun m => restoreOne b (stored round m)) S := by
        unfold tmap
        have inner : ∀ l : List (K × Mx K),
            mapItems (restoreOne b) (l.map fun q => (q.1, stored round q.2)) =
              mapItems (fun m => restoreOne b (stored round m)) l := by
          intro l
          induction l with
          | nil => rfl
          | cons q l ih => simp only [List.map_cons, mapItems, ih]
        clear * - inner
        induction S with
        | nil => rfl
        | cons p S ih => simp only [List.map_cons, mapItems, ih, inner]
      rw [h1]
      exact mapTable_ok _ _ S hb
    rcases hk with hk | hk
    · have : anySsm S = true := by
        rw [anySsm_iff]
        obtain ⟨p, hp, hp2⟩ := hneS
        obtain ⟨q, hq⟩ := List.exists_mem_of_ne_nil _ hp2
        exact ⟨p, hp, q, hq, hk p (hsub p hp) q hq⟩
      rw [this]
      exact key _ fun p hp q hq => restore_ssm round (hgS p hp q hq) (hk p (hsub p hp) q hq)
    · have : anySsm S = false := by
        rw [← Bool.not_eq_true, anySsm_iff]
        rintro ⟨p, hp, q, hq, h0⟩
        exact hk p (hsub p hp) q hq h0
      rw [this]
      exact key _ fun p hp q hq => restore_csr round (hgS p hp q hq) (hk p (hsub p hp) q hq)
  refine ⟨_, tmap (keep round) S, hsave, ?_, ?_, ?_, fun q hq => put_other d _ hq⟩
  · unfold loadT
    rw [readFile_put d name compressed _ hf]
    simp only [hload]
  · intro l s hw
    rw [get_tmap, ← hget l s hw]
    cases hm : get S l s with
    | none => exact .none
    | some m => exact .some (keep_kept round (get_mem hgS hm))
  · intro l s hw
    rw [get_tmap, hnone l s hw]
    rfl

/-- **C79**, what cannot be saved: a network without transition matrices, a rate that was not
computed, anything that is neither a compressed nor a csr matrix (lists of matrices), and an empty
table are rejected and no file is written. -/
theorem C79_rejected (d : Disk K H) (h : H) (T : Table K (Mx K)) (name : List Char)
    (round : Option K) (compressed : Bool) :
    saveT d h none name none round compressed = .error .assertionError ∧
    (∀ l, T.lookup l = none →
      saveT d h (some T) name (some l) round compressed = .error .keyError) ∧
    (∀ lamda l s, Wanted lamda l → (∀ l', lamda = some l' → ∃ t, T.lookup l' = some t) →
      get T l s = some .other → saveT d h (some T) name lamda round compressed = .error .typeError) ∧
    (∀ lamda, saveT d h (some []) name lamda round compressed =
      .error (if lamda = none then .unboundLocal else .keyError)) := by
  refine ⟨rfl, ?_, ?_, ?_⟩
  · intro l hl
    unfold saveT selected
    simp only [hl]
  · intro lamda l s hw hl hm
    obtain ⟨S, hS, hsub, hget, hnone⟩ := selected_spec T lamda hl
    rw [← hget l s hw] at hm
    have either : ∀ m : Mx K, storeOne round m = .error .typeError ∨ ∃ b, storeOne round m = .ok b := by
      intro m
      cases m with
      | ssm A => exact .inr ⟨_, rfl⟩
      | csr M => exact .inr ⟨_, rfl⟩
      | other => exact .inl rfl
    have h1 : mapItems (mapItems (storeOne round)) S = .error .typeError := by
      apply mapItems_error
      · intro p _
        exact mapItems_either _ _ _ fun q _ => either q.2
      · unfold get at hm
        cases hl' : S.lookup l with
        | none => rw [hl'] at hm; simp at hm
        | some t =>
          rw [hl'] at hm
          refine ⟨_, lookup_mem hl', mapItems_error _ _ _ (fun q _ => either q.2) ?_⟩
          exact ⟨_, lookup_mem (l := t) hm, rfl⟩
    unfold saveT
    simp only [hS, h1]
  · intro lamda
    unfold saveT selected
    cases lamda with
    | none => simp [mapItems]
    | some l => simp

/-- **C79**, names without extension.  Matrices saved compressed as `x.pickle` go to
`x.pickle.gz`; if there is no other file called `x`, they are found under this name. -/
theorem C79_stem (d : Disk K H) (h : H) (T : Table K (Mx K)) (name : List Char) (lamda round : Option K)
    (he : ext name ≠ ".pickle".toList) (he2 : ext name ≠ ".gz".toList)
    (hx : ext (name ++ ".pickle".toList) = ".pickle".toList) (hd1 : d (name ++ ".pickle".toList) = none)
    (hd2 : d (name ++ ".gz".toList) = none) (d' : Disk K H)
    (hs : saveT d h (some T) (name ++ ".pickle".toList) lamda round true = .ok (d', T)) :
    readFile d' name = (match d' (name ++ ".pickle.gz".toList) with
      | none => .error .fileNotFound
      | some f => .ok f.content) ∧ (d' (name ++ ".pickle.gz".toList)).isSome := by
  have hpath : savePath true (name ++ ".pickle".toList) = name ++ ".pickle.gz".toList := by
    unfold savePath
    rw [if_pos rfl, if_neg (by rw [hx]; decide), List.append_assoc]
    rfl
  have key : ∃ c, d' = put d (name ++ ".pickle.gz".toList) ⟨true, c⟩ := by
    unfold saveT at hs
    dsimp only at hs
    rw [hpath] at hs
    split at hs
    · simp at hs
    · split at hs
      · simp at hs
      · split at hs
        · simp at hs
        · simp only [Except.ok.injEq, Prod.mk.injEq] at hs
          exact ⟨_, hs.1.symm⟩
  obtain ⟨c, rfl⟩ := key
  have h1 : put d (name ++ ".pickle.gz".toList) ⟨true, c⟩ (name ++ ".pickle".toList) = none := by
    rw [put_other d _ (append_ne (by decide)), hd1]
  have h2 : put d (name ++ ".pickle.gz".toList) ⟨true, c⟩ (name ++ ".gz".toList) = none := by
    rw [put_other d _ (append_ne (by decide)), hd2]
  unfold readFile loadPath
  simp only [he, he2, if_false, h1, h2, put_same, Option.isSome_none, Option.isSome_some, Bool.false_eq_true, if_true, and_self]

theorem mapItems_fails {A B : Type} (f : A → Except FErr B) (l : List (K × A)) (h : ∃ p ∈ l, ∃ e, f p.2 = .error e) :
    ∃ e, mapItems f l = .error e := by
  induction l with
  | nil => obtain ⟨p, hp, _⟩ := h; simp at hp
  | cons p l ih =>
    unfold mapItems
    cases hf : f p.2 with
    | error e => exact ⟨e, rfl⟩
    | ok b =>
      obtain ⟨q, hq, e, he⟩ := h
      rcases List.mem_cons.1 hq with rfl | hq
      · rw [hf] at he; cases he
      · obtain ⟨e', he'⟩ := ih ⟨q, hq, e, he⟩
        rw [he']
        exact ⟨e', rfl⟩

/-- **C79**, lists that cannot be saved: an empty list, or one whose matrices are not in the
compressed form, is rejected and no file is written. -/
theorem C79_inter_rejected (lin : Bool) (d : Disk K H) (h : H) (T : Table K (Lst K)) (name : List Char)
    (lamda round : Option K) (compressed replace : Bool) (hr : replace = true ∨ d (savePath compressed name) = none)
    (hl : ∀ l, lamda = some l → ∃ t, T.lookup l = some t) {l s : K} (hw : Wanted lamda l) {x : Lst K}
    (hx : get T l s = some x) (hbad : x = .ssms [] ∨ ∃ r, x = .others r) :
    ∃ e, saveInter lin d h (some T) name lamda round compressed replace = .error e := by
  obtain ⟨S, hS, -, hget, -⟩ := selected_spec T lamda hl
  rw [← hget l s hw] at hx
  have hst : ∃ e, storeList round x = .error e := by
    rcases hbad with rfl | ⟨r, rfl⟩
    · exact ⟨_, rfl⟩
    · cases r with
      | nil => exact ⟨_, rfl⟩
      | cons a r => exact ⟨_, rfl⟩
  have hm : ∃ e, mapItems (mapItems (storeList round)) S = .error e := by
    apply mapItems_fails
    unfold get at hx
    cases hl' : S.lookup l with
    | none => rw [hl'] at hx; simp at hx
    | some t =>
      rw [hl'] at hx
      exact ⟨_, lookup_mem hl', mapItems_fails _ _ ⟨_, lookup_mem (l := t) hx, hst⟩⟩
  obtain ⟨e, he⟩ := hm
  unfold saveInter
  dsimp only
  rw [if_neg (by rintro ⟨h1, h2⟩; rcases hr with h | h <;> simp_all)]
  split
  · exact ⟨_, rfl⟩
  · simp only [hS, he]
    exact ⟨_, rfl⟩

/-- **C79, violated for tables of both kinds.** A network that holds a compressed matrix for one
rate and a csr matrix for another is saved without complaint, but the file cannot be loaded. -/
theorem C79_mixed_violated (d : Disk K H) (h : H) (T : Table K (Mx K)) (name : List Char)
    (round : Option K) (compressed : Bool) (hf : Fits d name compressed) (hg : All Good T)
    (h1 : ∃ p ∈ T, ∃ q ∈ p.2, IsSsm q.2) (h2 : ∃ p ∈ T, ∃ q ∈ p.2, ¬ IsSsm q.2) :
    ∃ d', saveT d h (some T) name none round compressed = .ok (d', T) ∧
      loadT d' name = .error .typeError := by
  refine ⟨_, saveT_ok d h T name none round compressed T rfl hg ?_, ?_⟩
  · obtain ⟨p, hp, q, hq, _⟩ := h1
    exact ⟨p, hp, fun h0 => by rw [h0] at hq; simp at hq⟩
  · unfold loadT
    rw [readFile_put d name compressed _ hf, (anySsm_iff T).2 h1]
    have either : ∀ p ∈ T, ∀ q ∈ p.2, restoreOne true (stored round q.2) = .error .typeError ∨
        ∃ b, restoreOne true (stored round q.2) = .ok b := by
      intro p hp q hq
      by_cases hs : IsSsm q.2
      · exact .inr ⟨_, restore_ssm round (hg p hp q hq) hs⟩
      · left
        cases hm : q.2 with
        | ssm A => rw [hm] at hs; exact absurd trivial hs
        | csr M => rfl
        | other => rfl
    have : mapItems (mapItems (restoreOne true)) (tmap (stored round) T) = .error .typeError := by
      apply mapItems_error
      · intro p hp
        obtain ⟨p', hp', rfl⟩ := List.mem_map.1 hp
        apply mapItems_either
        intro q hq
        obtain ⟨q', hq', rfl⟩ := List.mem_map.1 hq
        exact either p' hp' q' hq'
      · obtain ⟨p, hp, q, hq, hs⟩ := h2
        refine ⟨_, List.mem_map_of_mem hp, mapItems_error _ _ _ ?_ ?_⟩
        · intro q hq
          obtain ⟨q', hq', rfl⟩ := List.mem_map.1 hq
          exact either p hp q' hq'
        · refine ⟨_, List.mem_map_of_mem hq, ?_⟩
          cases hm : q.2 with
          | ssm A => rw [hm] at hs; exact absurd trivial hs
          | csr M => simp only [hm, stored, restoreOne, if_true]
          | other => simp only [hm, stored, restoreOne, if_true]
    simp only [this]

/-- **C79, violated for a second, compressed save.** A network saved under a name without
extension, and then another one saved compressed under the same name: the loader reads the first. -/
theorem C79_stale_violated (d : Disk K H) (h1 h2 : H) (T1 T2 : Table K (Mx K)) (name : List Char)
    (r1 r2 : Option K) (he : ext name ≠ ".pickle".toList) (he2 : ext name ≠ ".gz".toList)
    (d1 d2 : Disk K H)
    (hs1 : saveT d h1 (some T1) name none r1 false = .ok (d1, T1))
    (hs2 : saveT d1 h2 (some T2) name none r2 true = .ok (d2, T2)) :
    loadT d2 name = loadT d1 name := by
  have key : ∀ (d : Disk K H) (h : H) (T : Table K (Mx K)) (r : Option K) (c : Bool) (d' : Disk K H),
      saveT d h (some T) name none r c = .ok (d', T) → ∃ x, d' = put d (savePath c name) ⟨c, x⟩ := by
    intro d h T r c d' hs
    unfold saveT selected at hs
    dsimp only at hs
    split at hs
    · simp at hs
    · split at hs
      · simp at hs
      · simp only [Except.ok.injEq, Prod.mk.injEq] at hs
        exact ⟨_, hs.1.symm⟩
  obtain ⟨x1, e1⟩ := key _ _ _ _ _ _ hs1
  obtain ⟨x2, e2⟩ := key _ _ _ _ _ _ hs2
  have p1 : savePath false name = name ++ ".pickle".toList := by
    unfold savePath
    rw [if_neg (by simp), if_neg he]
  have p2 : savePath true name = name ++ ".gz".toList := by
    unfold savePath
    rw [if_pos rfl, if_neg he2]
  have a1 : d1 (name ++ ".pickle".toList) = some ⟨false, x1⟩ := by rw [e1, p1, put_same]
  have a2 : d2 (name ++ ".pickle".toList) = some ⟨false, x1⟩ := by
    rw [e2, p2, put_other _ _ (append_ne (by decide)), a1]
  have r1 : readFile d1 name = .ok x1 := by
    unfold readFile loadPath
    simp only [he, he2, if_false, a1, Option.isSome_some, if_true]
  have r2 : readFile d2 name = .ok x1 := by
    unfold readFile loadPath
    simp only [he, he2, if_false, a2, Option.isSome_some, if_true]
  unfold loadT
  rw [r1, r2]

/-- **C79, violated for a name with the extension of the other format.** Saved compressed as
`x.pickle` (or uncompressed as `x.gz`), the matrices go to `x.pickle.gz` (`x.gz.pickle`), and the
loader, given the same name, looks for a file that was not written. -/
theorem C79_name_violated (d : Disk K H) (name : List Char) (compressed : Bool)
    (he : ext name = if compressed then ".pickle".toList else ".gz".toList) (hd : d name = none)
    (f : File K H) : loadT (put d (savePath compressed name) f) name = .error .fileNotFound := by
  have hlen : ∀ x : List Char, x ≠ [] → name ≠ name ++ x := by
    intro x hx e
    have := congrArg List.length e
    rw [List.length_append] at this
    exact hx (List.length_eq_zero_iff.1 (by omega))
  unfold loadT readFile loadPath savePath
  cases compressed with
  | true =>
    simp only [if_true] at he
    simp only [he, if_true, (by decide : ¬ ".pickle".toList = ".gz".toList), if_false]
    rw [put_other _ _ (hlen _ (by decide)), hd]
  | false =>
    simp only [Bool.false_eq_true, if_false] at he
    simp only [he, if_true, (by decide : ¬ ".gz".toList = ".pickle".toList), if_false,
      Bool.false_eq_true]
    rw [put_other _ _ (hlen _ (by decide)), hd]

/-! ### Lists of inter-event matrices -/

/-- The list in order that the code expects. -/
def GoodList : Lst K → Prop
  | .ssms l => l ≠ [] ∧ ∀ A ∈ l, A.WF ∧ A.small.NoRepeats
  | .others _ => False

/-- The matrices of a list, trimmed one by one. -/
def KeptList (round : Option K) : Lst K → Lst K → Prop
  | .ssms l, .ssms l' => List.Forall₂ (KeptSsm round) l l'
  | _, _ => False

/-- The dictionaries of a list. -/
def storedList (round : Option K) : Lst K → List (SDict K)
  | .ssms l => l.map fun A => toDict (roundSsm round A)
  | .others _ => []

theorem storeList_good (round : Option K) {l : Lst K} (h : GoodList l) :
    storeList round l = .ok (storedList round l) := by
  cases l with
  | others l => exact h.elim
  | ssms l =>
    cases l with
    | nil => exact absurd rfl h.1
    | cons A l => rfl

theorem mapM_ofDict (round : Option K) : ∀ l : List (SSM K), (∀ A ∈ l, A.WF) →
    (l.map fun A => toDict (roundSsm round A)).mapM ofDict = .ok (l.map (roundSsm round))
  | [], _ => rfl
  | A :: l, h => by
    have h1 := ofDict_toDict (roundSsm_wf round (h A (List.mem_cons_self ..)))
    have h2 := mapM_ofDict round l fun B hB => h B (List.mem_cons_of_mem _ hB)
    rw [List.map_cons, List.mapM_cons, h1, h2]
    rfl

theorem restoreList_good (round : Option K) {l : Lst K} (h : GoodList l) :
    restoreList (storedList round l) = .ok (roundLst round l) := by
  cases l with
  | others l => exact h.elim
  | ssms l =>
    unfold restoreList storedList roundLst
    simp only [mapM_ofDict round l fun A hA => (h.2 A hA).1]

theorem roundLst_kept (round : Option K) {l : Lst K} (h : GoodList l) :
    KeptList round l (roundLst round l) := by
  cases l with
  | others l => exact h.elim
  | ssms l =>
    have h2 := h.2
    clear h
    unfold roundLst KeptList
    dsimp only
    induction l with
    | nil => exact .nil
    | cons A l ih =>
      refine .cons ?_ (ih fun B hB => h2 B (List.mem_cons_of_mem _ hB))
      have h3 := h2 A (List.mem_cons_self ..)
      cases round with
      | none => rfl
      | some tol => exact trim_ssm tol h3.1 h3.2

theorem lookup_roundTable (round lamda : Option K) (T : Table K (Lst K)) (l : K) :
    (roundTable round lamda T).lookup l = (T.lookup l).map fun d =>
      if lamda = none ∨ lamda = some l then d.map fun q => (q.1, roundLst round q.2) else d := by
  unfold roundTable
  induction T with
  | nil => rfl
  | cons p T ih =>
    obtain ⟨k, t⟩ := p
    by_cases hk : l = k
    · subst hk
      simp only [List.map_cons]
      split
      · simp
      · simp
    · simp only [List.map_cons]
      split
      · simp only [List.lookup_cons, beq_eq_false_iff_ne.2 hk]
        exact ih
      · simp only [List.lookup_cons, beq_eq_false_iff_ne.2 hk]
        exact ih

/-- **C79**, lists of inter-event matrices (compressed form).  What is loaded is what the network
holds *after* the call, and each matrix is the one held before, trimmed as asked; rates that were
not asked for are untouched, and so are all other files. -/
theorem C79_inter_partial (lin : Bool) (d : Disk K H) (h : H) (T : Table K (Lst K))
    (name : List Char) (lamda round : Option K) (compressed replace : Bool)
    (hf : Fits d name compressed) (hg : All GoodList T)
    (hlin : lin = true → lamda ≠ none)
    (hr : replace = true ∨ d (savePath compressed name) = none)
    (hl : ∀ l, lamda = some l → ∃ t, T.lookup l = some t) :
    ∃ d' T' R, saveInter lin d h (some T) name lamda round compressed replace = .ok (d', T') ∧
      loadInter d' name = .ok (h, R) ∧
      (∀ l s, Wanted lamda l → get R l s = get T' l s ∧
        Option.Rel (KeptList round) (get T l s) (get T' l s)) ∧
      (∀ l s, ¬ Wanted lamda l → get R l s = none ∧ get T' l s = get T l s) ∧
      ∀ q, q ≠ savePath compressed name → d' q = d q := by
  obtain ⟨S, hS, hsub, hget, hnone⟩ := selected_spec T lamda hl
  have hgS : All GoodList S := fun p hp => hg p (hsub p hp)
  have hstore := mapTable_ok (storeList round) (storedList round) S
    (fun p hp q hq => storeList_good round (hgS p hp q hq))
  have hrest : mapItems (mapItems restoreList) (tmap (storedList round) S) =
      .ok (tmap (roundLst round) S) := by
    have h1 : mapItems (mapItems restoreList) (tmap (storedList round) S) =
        mapItems (mapItems fun m => restoreList (storedList round m)) S := by
      unfold tmap
      have inner : ∀ l : List (K × Lst K),
          mapItems restoreList (l.map fun q => (q.1, storedList round q.2)) =
            mapItems (fun m => restoreList (storedList round m)) l := by
        intro l
        induction l with
        | nil => rfl
        | cons q l ih => simp only [List.map_cons, mapItems, ih]
      clear * - inner
      induction S with
      | nil => rfl
      | cons p S ih => simp only [List.map_cons, mapItems, ih, inner]
    rw [h1]
    exact mapTable_ok _ _ S fun p hp q hq => restoreList_good round (hgS p hp q hq)
  refine ⟨put d (savePath compressed name) ⟨compressed, .lists h (tmap (storedList round) S)⟩,
    roundTable round lamda T, tmap (roundLst round) S, ?_, ?_, ?_, ?_, fun q hq => put_other d _ hq⟩
  · unfold saveInter
    dsimp only
    rw [if_neg, if_neg]
    · simp only [hS, hstore]
    · rintro ⟨h1, h2⟩
      exact hlin h1 h2
    · rintro ⟨h1, h2⟩
      rcases hr with hr | hr
      · rw [hr] at h2; simp at h2
      · rw [hr] at h1; simp at h1
  · unfold loadInter
    rw [readFile_put d name compressed _ hf]
    simp only [hrest]
  · intro l s hw
    have hT' : get (roundTable round lamda T) l s = (get T l s).map (roundLst round) := by
      unfold get
      rw [lookup_roundTable]
      cases T.lookup l with
      | none => rfl
      | some t =>
        have hw' : lamda = none ∨ lamda = some l := hw
        simp only [Option.map_some, Option.bind_some, if_pos hw']
        exact lookup_map (roundLst round) t s
    rw [get_tmap, hget l s hw, hT']
    refine ⟨rfl, ?_⟩
    cases hm : get T l s with
    | none => exact .none
    | some m => exact .some (roundLst_kept round (get_mem hg hm))
  · intro l s hw
    rw [get_tmap, hnone l s hw]
    refine ⟨rfl, ?_⟩
    unfold get
    rw [lookup_roundTable]
    cases T.lookup l with
    | none => rfl
    | some t =>
      have hw' : ¬ (lamda = none ∨ lamda = some l) := hw
      simp only [Option.map_some, Option.bind_some, if_neg hw']

/-- **C79, violated by the default of `save_inter_T`.** An existing file of the same name is kept:
nothing is written, so the loader returns the older matrices. -/
theorem C79_not_replaced_violated (lin : Bool) (d : Disk K H) (h : H) (T : Table K (Lst K))
    (name : List Char) (lamda round : Option K) (compressed : Bool) (f : File K H)
    (hd : d (savePath compressed name) = some f) :
    saveInter lin d h (some T) name lamda round compressed false = .ok (d, T) := by
  unfold saveInter
  simp [hd]

/-- No other failure is an `AttributeError`. -/
theorem mapItems_ne {A B : Type} {f : A → Except FErr B} (hf : ∀ a, f a ≠ .error .attributeError) (l : List (K × A)) :
    mapItems f l ≠ .error .attributeError := by
  induction l with
  | nil => simp [mapItems]
  | cons p l ih =>
    obtain ⟨k, a⟩ := p
    unfold mapItems
    cases h1 : f a with
    | error e => simpa [h1] using hf a
    | ok b =>
      cases h2 : mapItems f l with
      | error e => simpa [h2] using ih
      | ok r => simp

/-- **C79, violated for the linear lists of all rates.** `save_inter_T_lin` without a rate fails
whenever it has something to write, and never writes: it looks for an attribute that only the other
format sets.  With a rate, and in `save_inter_T`, this never happens. -/
theorem C79_all_rates_violated (lin : Bool) (d : Disk K H) (h : H) (T : Table K (Lst K)) (name : List Char)
    (lamda round : Option K) (compressed replace : Bool) :
    (saveInter lin d h (some T) name lamda round compressed replace = .error .attributeError ↔
      lin = true ∧ lamda = none ∧ (d (savePath compressed name) = none ∨ replace = true)) ∧
    ∀ r, saveInter true d h (some T) name none round compressed replace = .ok r → r.1 = d := by
  refine ⟨?_, ?_⟩
  · unfold saveInter
    simp only
    split
    · next hc =>
      have : ¬ (lin = true ∧ lamda = none ∧ (d (savePath compressed name) = none ∨ replace = true)) := by
        rintro ⟨-, -, h | h⟩
        · rw [h] at hc; simp at hc
        · rw [h] at hc; simp at hc
      simp [this]
    next hc =>
    have hc' : d (savePath compressed name) = none ∨ replace = true := by
      cases hd : d (savePath compressed name) with
      | none => exact .inl rfl
      | some f => cases replace <;> simp_all
    split
    · next hl => simp [hl, hc']
    next hl =>
    have hno : ¬ (lin = true ∧ lamda = none ∧ (d (savePath compressed name) = none ∨ replace = true)) :=
      fun h => hl ⟨h.1, h.2.1⟩
    simp only [hno, iff_false]
    cases hs : selected T lamda with
    | error e =>
      unfold selected at hs
      split at hs
      · cases hs
      split at hs
      · cases hs; simp
      · cases hs
    | ok S =>
      simp only
      cases hm : mapItems (mapItems (storeList round)) S with
      | error e =>
        simp only
        intro he
        have he : e = .attributeError := by simpa using he
        subst he
        refine mapItems_ne (fun l => mapItems_ne (fun a => ?_) l) S hm
        unfold storeList
        split <;> simp
      | ok F => simp
  · intro r hr
    unfold saveInter at hr
    simp only at hr
    split at hr
    · cases hr; rfl
    · simp at hr

/-! ### Witnesses -/

/-- A stochastic 2 × 2 matrix with a small entry. -/
def exA : SSM ℚ := ⟨2, [0, 1], 
  { nrows := 2, ncols := 2, data := [999999999/1000000000, 1/1000000000, 1/2, 1/2],
    indices := [0, 1, 0, 1], indptr := [0, 2, 4] }, 1⟩

theorem exA_wf : exA.WF ∧ exA.small.NoRepeats :=
  ⟨⟨by decide, by decide, ⟨by decide, by decide, by decide, by decide, by decide, by decide⟩, by decide,
    by decide⟩, by unfold Csr.NoRepeats; decide⟩

theorem ext_x : ext "x".toList = [] := by decide

theorem exFits (d : Disk ℚ Unit) : Fits d "x".toList false := by
  unfold Fits
  rw [ext_x, if_neg (by simp)]
  decide

/-- **C79, violated for the network itself.** Saving the lists of inter-event matrices with the
default rounding (tolerance `1e-8`) removes entries from the matrices that the network goes on
using: afterwards the first row, which summed to one, does not. -/
theorem C79_network_changed_violated :
    ∃ (T T' : Table ℚ (Lst ℚ)) (d d' : Disk ℚ Unit) (A A' : SSM ℚ),
      saveInter false d () (some T) "x".toList none (some (1/100000000)) false false = .ok (d', T') ∧
      get T 1 0 = some (.ssms [A]) ∧ get T' 1 0 = some (.ssms [A']) ∧ A.WF ∧
      A.dense 0 0 + A.dense 0 1 = 1 ∧ A'.dense 0 0 + A'.dense 0 1 < 1 := by
  refine ⟨[(1, [(0, .ssms [exA])])], _, fun _ => none, _, exA,
    exA.setToZeroes (1/100000000) true false, rfl, rfl, ?_, exA_wf.1, by decide +kernel, by decide +kernel⟩
  rfl

/-- The hypotheses of `C79_T_partial` can be met, with both kinds of tables. -/
example : ∃ (T : Table ℚ (Mx ℚ)) (d : Disk ℚ Unit), Fits d "x".toList false ∧ Fits d "x".toList true ∧
    All Good T ∧ All IsSsm T ∧ ∃ l s m, Wanted (some 1) l ∧ get T l s = some m := by
  refine ⟨[(1, [(0, .ssm exA)]), (2, [(0, .ssm exA)])], fun _ => none, exFits _, ?_, ?_, ?_,
    1, 0, .ssm exA, .inr rfl, rfl⟩
  · unfold Fits
    rw [ext_x]
    decide
  · intro p hp q hq
    simp only [List.mem_cons, List.not_mem_nil, or_false] at hp
    rcases hp with rfl | rfl <;> (rw [List.mem_singleton.1 hq]; exact exA_wf)
  · intro p hp q hq
    simp only [List.mem_cons, List.not_mem_nil, or_false] at hp
    rcases hp with rfl | rfl <;> (rw [List.mem_singleton.1 hq]; trivial)

/-- … of `C79_mixed_violated` … -/
example : ∃ T : Table ℚ (Mx ℚ), All Good T ∧ (∃ p ∈ T, ∃ q ∈ p.2, IsSsm q.2) ∧
    ∃ p ∈ T, ∃ q ∈ p.2, ¬ IsSsm q.2 := by
  refine ⟨[(1, [(0, .ssm exA)]), (2, [(0, .csr exA.small)])], ?_,
    ⟨_, List.mem_cons_self .., _, List.mem_cons_self .., trivial⟩,
    ⟨_, List.mem_cons_of_mem _ (List.mem_cons_self ..), _, List.mem_cons_self .., fun h => h⟩⟩
  intro p hp q hq
  simp only [List.mem_cons, List.not_mem_nil, or_false] at hp
  rcases hp with rfl | rfl
  · rw [List.mem_singleton.1 hq]; exact exA_wf
  · rw [List.mem_singleton.1 hq]; exact ⟨exA_wf.1.block, exA_wf.2⟩

/-- … of `C79_inter_partial` … -/
example : All GoodList ([(1, [(0, .ssms [exA, exA])])] : Table ℚ (Lst ℚ)) := by
  intro p hp q hq
  rw [List.mem_singleton.1 hp] at hq
  rw [List.mem_singleton.1 hq]
  refine ⟨by simp, fun A hA => ?_⟩
  have : A = exA := by simpa using hA
  rw [this]
  exact exA_wf

/-- … and of `C79_name_violated`. -/
example : ext "x.pickle".toList = ".pickle".toList ∧ ext "a.b/x.gz".toList = ".gz".toList ∧
    savePath true "x.pickle".toList = "x.pickle.gz".toList := by decide

end Verif.MatFiles
