import Verif.Rename.Mats
import Verif.Rename.Mkl

/-!
# The flow integral of a network with other names
-/

set_option linter.unusedSectionVars false

namespace Verif.Rename

open Verif.TempNet Verif.Trans Verif.Autocov Verif.Flow

variable {K : Type} [Field K] [LinearOrder K] [IsStrictOrderedRing K]
variable {n : Nat} {π : Nat → Nat}

theorem massAt_ren (hπ : PermBelow n π) {p p' : Nat → K} (hp : RenumberedVec n π p p') {T T' : Mat K}
    (hT : Renumbered n π T T') : RenumberedVec n π (massAt n p T) (massAt n p' T') := by
  intro j hj
  simp only [massAt]
  rw [hπ.sum]
  refine Finset.sum_congr rfl fun i hi => ?_
  have hi : i < n := by simpa using hi
  rw [hp i hi, hT i j hi hj]

theorem trim_ren (hπ : PermBelow n π) {A A' : Mat K} (hA : Renumbered n π A A') (r : K) :
    Renumbered n π (trim n r A) (trim n r A') := by
  intro i j hi hj
  simp only [trim, maxAbs_ren hπ hA, hA i j hi hj]

/-- The matrices given to `FlowIntegralClustering`, renumbered. -/
def RelMats (n : Nat) (π : Nat → Nat) : Option (Mats K) → Option (Mats K) → Prop
  | none, none => True
  | some (.cumulative l), some (.cumulative l') => List.Forall₂ (Renumbered n π) l l'
  | some (.inter l), some (.inter l') => List.Forall₂ (Renumbered n π) l l'
  | _, _ => False

/-- The initial probabilities given, renumbered. -/
def RelP (n : Nat) (π : Nat → Nat) : Option (Nat → K) → Option (Nat → K) → Prop
  | none, none => True
  | some p, some q => RenumberedVec n π p q
  | _, _ => False

theorem products_ren (hπ : PermBelow n π) (sp : Bool) {l l' : List (Mat K)}
    (h : List.Forall₂ (Renumbered n π) l l') :
    RelRes (List.Forall₂ (Renumbered n π)) (products n sp l) (products n sp l') := by
  cases h with
  | nil => exact .inl ⟨_, rfl, rfl⟩
  | @cons M M' r r' hM hr =>
    refine .inr ⟨_, _, rfl, rfl, ?_⟩
    have key : ∀ (r r' : List (Mat K)), List.Forall₂ (Renumbered n π) r r' → ∀ a a' : List (Mat K),
        List.Forall₂ (Renumbered n π) a a' → List.Forall₂ (Renumbered n π)
          (r.foldl (fun acc T => acc ++ [if sp then rowNormalize n (mul n (acc.getLastD eye) T)
            else mul n (acc.getLastD eye) T]) a)
          (r'.foldl (fun acc T => acc ++ [if sp then rowNormalize n (mul n (acc.getLastD eye) T)
            else mul n (acc.getLastD eye) T]) a') := by
      intro r r' h
      induction h with
      | nil => exact fun _ _ h => h
      | cons hT _ ih =>
        intro a a' ha
        rw [List.foldl_cons, List.foldl_cons]
        refine ih _ _ (forall₂_append ha (.cons ?_ .nil))
        have := mul_ren hπ (getLastD_ren hπ ha) hT
        cases sp with
        | false => exact this
        | true => exact rowNormalize_ren hπ this
    exact key _ _ hr _ _ (.cons hM .nil)

/-- The inputs of a flow integral clustering for the network with other names: the matrices and
the initial probabilities are renumbered, everything else is the same. -/
structure RelInput (π : Nat → Nat) (inp inp' : Input K) : Prop where
  same : inp' = { inp with mats := inp'.mats, p1 := inp'.p1 }
  mats : RelMats inp.n π inp.mats inp'.mats
  p1 : RelP inp.n π inp.p1 inp'.p1

theorem tList_ren {inp inp' : Input K} (hπ : PermBelow inp.n π) (h : RelInput π inp inp') :
    RelRes (List.Forall₂ (Renumbered inp.n π)) (tList inp) (tList inp') := by
  obtain ⟨hsame, hm, _⟩ := h
  rw [hsame] at *
  generalize inp'.mats = m' at *
  unfold tList
  simp only
  match hmm : inp.mats, m' with
  | none, none => exact .inl ⟨_, rfl, rfl⟩
  | some (.cumulative l), some (.cumulative l') =>
    rw [hmm] at hm
    simp only [RelMats] at hm
    cases hm with
    | nil => exact .inl ⟨_, rfl, rfl⟩
    | cons h hs => exact .inr ⟨_, _, rfl, rfl, .cons h hs⟩
  | some (.inter l), some (.inter l') =>
    rw [hmm] at hm
    simp only [RelMats] at hm
    refine products_ren hπ _ ?_
    cases inp.reverse with
    | false => exact hm
    | true => exact List.forall₂_reverse_iff.2 hm
  | none, some _ => rw [hmm] at hm; exact hm.elim
  | some (.cumulative _), none => rw [hmm] at hm; exact hm.elim
  | some (.cumulative _), some (.inter _) => rw [hmm] at hm; exact hm.elim
  | some (.inter _), none => rw [hmm] at hm; exact hm.elim
  | some (.inter _), some (.cumulative _) => rw [hmm] at hm; exact hm.elim

theorem stepMatrix_ren {inp inp' : Input K} (hπ : PermBelow inp.n π) (h : RelInput π inp inp')
    (hmkl : inp.mkl = false) {p p' : Nat → K} (hp : RenumberedVec inp.n π p p') {T T' : Mat K}
    (hT : Renumbered inp.n π T T') (dt : K) :
    Renumbered inp.n π (stepMatrix inp p T dt) (stepMatrix inp' p' T' dt) := by
  have hq := massAt_ren hπ hp hT
  have hinv : ∀ k, k < inp.n → invOrOne (massAt inp.n p' T') (π k) = invOrOne (massAt inp.n p T) k := by
    intro k hk
    simp only [invOrOne, hq k hk]
  rw [h.same]
  intro i j hi hj
  simp only [stepMatrix, hmkl, Bool.false_and, Bool.false_eq_true, if_false]
  split
  · beta_reduce
    congr 1
    rw [hπ.sum]
    refine Finset.sum_congr rfl fun k hk => ?_
    have hk : k < inp.n := by simpa using hk
    rw [hinv k hk, hT i k hi hk, hT j k hj hk]
  · beta_reduce
    congr 1
    rw [hπ.sum]
    refine Finset.sum_congr rfl fun k hk => ?_
    have hk : k < inp.n := by simpa using hk
    rw [hinv k hk, hT i k hi hk, hT j k hj hk]

/-- The loop, renumbered. -/
structure RelLoop (n : Nat) (π : Nat → Nat) (s s' : Loop K) : Prop where
  ipt : Renumbered n π s.ipt s'.ipt
  total : s'.total = s.total
  out : List.Forall₂ (Renumbered n π) s.out s'.out

theorem step_flow_ren {inp inp' : Input K} (hπ : PermBelow inp.n π) (h : RelInput π inp inp')
    (hmkl : inp.mkl = false) {p p' : Nat → K} (hp : RenumberedVec inp.n π p p') (ks : List Nat)
    {s s' : Loop K} (hs : RelLoop inp.n π s s') {e e' : (Mat K × K) × Nat}
    (hT : Renumbered inp.n π e.1.1 e'.1.1) (hd : e'.1.2 = e.1.2) (hk : e'.2 = e.2) :
    RelLoop inp.n π (step inp p ks s e) (step inp' p' ks s' e') := by
  have h1 := stepMatrix_ren hπ h hmkl hp hT e.1.2
  have e1 : inp'.sparse = inp.sparse := by rw [h.same]
  have e2 : inp'.rtol = inp.rtol := by rw [h.same]
  have e3 : inp'.n = inp.n := by rw [h.same]
  have e4 : inp'.mkl = inp.mkl := by rw [h.same]
  have hipt : Renumbered inp.n π (step inp p ks s e).ipt (step inp' p' ks s' e').ipt := by
    simp only [step, e1, e2, e3, hd]
    cases inp.sparse with
    | true =>
      intro i j hi hj
      simp only [if_true]
      rw [trim_ren hπ hs.ipt _ i j hi hj, trim_ren hπ h1 _ i j hi hj]
    | false =>
      intro i j hi hj
      simp only [Bool.false_eq_true, if_false]
      rw [hs.ipt i j hi hj, h1 i j hi hj]
  refine ⟨hipt, ?_, ?_⟩
  · simp only [step, hs.total, hd]
  · have hst : ∀ (A A' : Mat K) (t : K), Renumbered inp.n π A A' →
        Renumbered inp.n π (stored inp p A t) (stored inp' p' A' t) := by
      intro A A' t hA i j hi hj
      simp only [stored, e1, e4, hmkl, Bool.and_false, Bool.false_eq_true, if_false]
      rw [hp i hi, hp j hj, hA i j hi hj]
    have hout : (step inp p ks s e).out =
        if e.2 + 1 ∈ ks then s.out ++ [stored inp p (step inp p ks s e).ipt (s.total + e.1.2)] else s.out := rfl
    have hout' : (step inp' p' ks s' e').out =
        if e'.2 + 1 ∈ ks then s'.out ++ [stored inp' p' (step inp' p' ks s' e').ipt (s'.total + e'.1.2)]
          else s'.out := rfl
    rw [hout, hout', hk, hs.total, hd]
    split
    · exact forall₂_append hs.out (.cons (hst _ _ _ hipt) .nil)
    · exact hs.out

theorem integral_ren {inp inp' : Input K} (hπ : PermBelow inp.n π) (h : RelInput π inp inp')
    (hmkl : inp.mkl = false) {p p' : Nat → K} (hp : RenumberedVec inp.n π p p') {Ts Ts' : List (Mat K)}
    (hT : List.Forall₂ (Renumbered inp.n π) Ts Ts') (ts : List K) (ks : List Nat) :
    List.Forall₂ (Renumbered inp.n π) (integral inp p Ts ts ks) (integral inp' p' Ts' ts ks) := by
  unfold integral
  have key : ∀ (Ts Ts' : List (Mat K)), List.Forall₂ (Renumbered inp.n π) Ts Ts' →
      ∀ (ds : List K) (k : Nat) (s s' : Loop K), RelLoop inp.n π s s' →
      RelLoop inp.n π (((Ts.zip ds).zipIdx k).foldl (step inp p ks) s)
        (((Ts'.zip ds).zipIdx k).foldl (step inp' p' ks) s') := by
    intro Ts Ts' hT
    induction hT with
    | nil => exact fun _ _ _ _ h => by simpa using h
    | cons hM _ ih =>
      intro ds k s s' hs
      cases ds with
      | nil => simpa using hs
      | cons d ds =>
        simp only [List.zip_cons_cons, List.zipIdx_cons, List.foldl_cons]
        exact ih _ _ _ _ (step_flow_ren hπ h hmkl hp ks hs hM rfl rfl)
  exact (key _ _ hT _ _ _ _ ⟨fun _ _ _ _ => rfl, rfl, .nil⟩).out

/-- The object after its construction, renumbered. -/
structure RelObj (n : Nat) (π : Nat → Nat) (o o' : Obj K) : Prop where
  p1 : RenumberedVec n π o.p1 o'.p1
  tList : List.Forall₂ (Renumbered n π) o.tList o'.tList
  timeList : o'.timeList = o.timeList
  kGrid : o'.kGrid = o.kGrid
  tGrid : o'.tGrid = o.tGrid
  iList : List.Forall₂ (Renumbered n π) o.iList o'.iList

theorem construct_ren_of {inp inp' : Input K} (hπ : PermBelow inp.n π) (h : RelInput π inp inp')
    (hint : ∀ (p p' : Nat → K) (Ts Ts' : List (Mat K)) (ts : List K) (ks : List Nat),
      RenumberedVec inp.n π p p' → List.Forall₂ (Renumbered inp.n π) Ts Ts' →
      List.Forall₂ (Renumbered inp.n π) (integral inp p Ts ts ks) (integral inp' p' Ts' ts ks)) :
    RelRes (RelObj inp.n π) (construct inp) (construct inp') := by
  have hp : RenumberedVec inp.n π (inp.p1.getD (uniform inp.n)) (inp'.p1.getD (uniform inp.n)) := by
    have := h.p1
    cases h1 : inp.p1 with
    | none =>
      cases h2 : inp'.p1 with
      | none => exact fun _ _ => rfl
      | some q => rw [h1, h2] at this; exact this.elim
    | some p =>
      cases h2 : inp'.p1 with
      | none => rw [h1, h2] at this; exact this.elim
      | some q => rw [h1, h2] at this; exact this
  have e1 : inp'.n = inp.n := by rw [h.same]
  have e2 : inp'.reverse = inp.reverse := by rw [h.same]
  have e3 : inp'.grid = inp.grid := by rw [h.same]
  have e4 : ∀ k, timeList inp' k = timeList inp k := by intro k; rw [h.same]; rfl
  unfold construct
  rcases tList_ren hπ h with ⟨e, g1, g2⟩ | ⟨Ts, Ts', g1, g2, g3⟩
  · rw [g1, g2]; exact .inl ⟨e, rfl, rfl⟩
  · rw [g1, g2]
    simp only [e1, e2, e3, e4, ← g3.length_eq]
    cases gridIndices inp.reverse (timeList inp Ts.length) inp.grid with
    | error e => exact .inl ⟨e, rfl, rfl⟩
    | ok g =>
      refine .inr ⟨_, _, rfl, rfl, hp, g3, rfl, rfl, rfl, ?_⟩
      rw [List.forall₂_map_left_iff, List.forall₂_map_right_iff]
      refine (hint _ _ _ _ _ _ hp g3).imp fun M M' hM => ?_
      intro i j hi hj
      beta_reduce
      rw [hM i j hi hj, hp i hi, hp j hj]

theorem forall₂_chain {α β γ δ : Type} {R : α → β → Prop} {S : β → γ → Prop} {Q : γ → δ → Prop}
    {U : α → δ → Prop} (hU : ∀ a b c d, R a b → S b c → Q c d → U a d) {a : List α} {b : List β}
    {c : List γ} {d : List δ} (h1 : List.Forall₂ R a b) (h2 : List.Forall₂ S b c)
    (h3 : List.Forall₂ Q c d) : List.Forall₂ U a d := by
  induction h1 generalizing c d with
  | nil => cases h2; cases h3; exact .nil
  | cons h _ ih =>
    cases h2 with
    | cons h' t2 =>
      cases h3 with
      | cons h'' t3 => exact .cons (hU _ _ _ _ h h' h'') (ih t2 t3)

theorem construct_ren {inp inp' : Input K} (hπ : PermBelow inp.n π) (h : RelInput π inp inp') :
    RelRes (RelObj inp.n π) (construct inp) (construct inp') := by
  refine construct_ren_of hπ h fun p p' Ts Ts' ts ks hp hT => ?_
  have h0 : RelInput π { inp with mkl := false } { inp' with mkl := false } :=
    ⟨by rw [h.same], h.mats, h.p1⟩
  have hbase := integral_ren (inp := { inp with mkl := false }) hπ h0 rfl hp hT ts ks
  cases hs : inp.sparse with
  | false =>
    have hs' : inp'.sparse = false := by rw [h.same]; exact hs
    have e : ∀ (x : Input K), x.sparse = false → ∀ (p : Nat → K) (Ts : List (Mat K)),
        integral x p Ts ts ks = integral { x with mkl := false } p Ts ts ks := by
      intro x hx p Ts
      unfold integral
      congr 2
      funext s e
      simp only [step, stepMatrix, stored, hx, Bool.false_eq_true, if_false, Bool.false_and]
    rw [e inp hs, e inp' hs']
    exact hbase
  | true =>
    have hs' : inp'.sparse = true := by rw [h.same]; exact hs
    cases hm : inp.mkl with
    | false =>
      have hm' : inp'.mkl = false := by rw [h.same]; exact hm
      have e1 : { inp with mkl := false } = inp := by rw [← hm]
      have e2 : { inp' with mkl := false } = inp' := by rw [← hm']
      rw [e1, e2] at hbase
      exact hbase
    | true =>
      have hm' : inp'.mkl = true := by rw [h.same]; exact hm
      have e1 : { inp with mkl := true } = inp := by rw [← hm]
      have e2 : { inp' with mkl := true } = inp' := by rw [← hm']
      have g1 := integral_mkl inp hs p Ts ts ks
      have g2 := integral_mkl inp' hs' p' Ts' ts ks
      rw [e1] at g1
      rw [e2] at g2
      have e3 : inp'.n = inp.n := by rw [h.same]
      refine forall₂_chain ?_ g1.flip hbase g2
      intro a b c d h1 h2 h3 i j hi hj
      rw [← h3 (π i) (by rw [e3]; exact hπ.1 i hi) (π j) (by rw [e3]; exact hπ.1 j hj),
        h2 i j hi hj]
      exact h1 i hi j hj

end Verif.Rename
