import Verif.Rename.Flow
import Verif.Trans.Expm
import Verif.SparseFlow.Props
import Verif.Louvain.Spec

/-!
# Properties C122 and C123

The results do not depend on how the nodes are called, nor on whether `sparse_dot_mkl` is
installed.
-/

set_option linter.dupNamespace false
set_option linter.unusedSectionVars false

namespace Verif.Rename

open Verif.TempNet Verif.Trans Verif.Autocov Verif.Flow Verif.Partition

variable {K : Type} [Field K] [LinearOrder K] [IsStrictOrderedRing K]

/-- **C122** (numbering).  The network of the same contacts with other names has the same
number of nodes, and the same events up to a renumbering of the nodes: node `i` becomes node
`π i`, and the name of `π i` is the new name of `i`. -/
theorem C122_numbering {L L' : Type} [LinearOrder L] [LinearOrder L'] (f : L → L')
    (hf : Function.Injective f) (evs : List (Event L K)) :
    let N := ofEvents evs
    let N' := ofEvents (evs.map (Event.rename f))
    N'.numNodes = N.numNodes ∧ ∃ π, PermBelow N.numNodes π ∧
      (∀ i, i < N.numNodes → ∃ l, N.labels[i]? = some l ∧ N'.labels[π i]? = some (f l)) ∧
      N'.events = N.events.map (Event.rename π) := by
  intro N N'
  have hn : N.numNodes = (allLabels evs).length := numNodes_eq evs
  have hn' : N'.numNodes = (allLabels evs).length := by
    rw [← allLabels_length hf evs]; exact numNodes_eq _
  refine ⟨by rw [hn, hn'], newIndex f evs, ?_, ?_, ofEvents_rename evs⟩
  · rw [hn]; exact newIndex_perm hf evs
  · intro i hi
    rw [hn] at hi
    exact ⟨(allLabels evs)[i], List.getElem?_eq_getElem hi, newIndex_spec evs i hi⟩

/-- **C122** (Laplacians).  For every renumbering of the nodes and every window, the Laplacians
and adjacency matrices of the renumbered network are the renumbered matrices, over the same
window, and the same exception is raised; likewise for the network of instantaneous contacts
and for the static adjacency matrix of a window. -/
theorem C122_laplacians {n : Nat} {π : Nat → Nat} (hπ : PermBelow n π) (evs : List (Event Nat K))
    (hr : InRange n evs) (sf : Nat → Bool) (a b : Option K) :
    RelRes (RelLaps n π) (computeLaplacians n evs sf a b)
      (computeLaplacians n (evs.map (Event.rename π)) sf a b) ∧
    RelRes (RelLaps n π) (computeInstLaplacians n evs sf a b)
      (computeInstLaplacians n (evs.map (Event.rename π)) sf a b) ∧
    ∀ u v : K, Renumbered n π (staticAdjacency evs u v)
      (staticAdjacency (evs.map (Event.rename π)) u v) :=
  ⟨computeLaplacians_ren hπ hr sf a b, computeInstLaplacians_ren hπ hr sf a b,
    fun u v => staticAdjacency_ren hπ hr u v⟩

/-- **C122** (matrices).  After any sequence of calls on a network and the same calls on the
renumbered network, the same exception is raised, or for every rate the inter-event transition
matrices are the renumbered ones, and so are the products. -/
theorem C122_matrices {π : Nat → Nat} (env : Env K) (E' : Mat K → Mat K) (hπ : PermBelow env.n π)
    (hr : InRange env.n env.events) (hE : Equivariant env.n π env.E E') (ops : List (Op K)) :
    (∃ e, run env ops = .error e ∧ run (Env.rename π env E') ops = .error e) ∨
    ∃ st st', run env ops = .ok st ∧ run (Env.rename π env E') ops = .ok st' ∧
      (∀ r, (st.interT.lookup r = none ∧ st'.interT.lookup r = none) ∨
        ∃ l l', st.interT.lookup r = some l ∧ st'.interT.lookup r = some l' ∧
          List.Forall₂ (Renumbered env.n π) l l') ∧
      ∀ r, (st.T.lookup r = none ∧ st'.T.lookup r = none) ∨
        ∃ v v', st.T.lookup r = some v ∧ st'.T.lookup r = some v' ∧ RelTVal env.n π v v' := by
  rcases run_ren hπ hr hE ops with h | ⟨st, st', h1, h2, h3⟩
  · exact .inl h
  · exact .inr ⟨st, st', h1, h2, fun r => lookup_rel h3.interT r, fun r => lookup_rel h3.T r⟩

/-- **C122** (exponential).  The matrix exponential does not depend on the numbering, which is
the assumption of `C122_matrices`. -/
theorem C122_expm {n : Nat} {π : Nat → Nat} (hπ : PermBelow n π) :
    Equivariant n π (expm n) (expm n) := by
  intro A B hAB i j hi hj
  let σ : Fin n → Fin n := fun a => ⟨π a, hπ.1 a a.2⟩
  have hσ : Function.Bijective σ := by
    refine Finite.injective_iff_bijective.1 fun a b e => ?_
    exact Fin.ext (hπ.2 a b a.2 b.2 (Fin.ext_iff.1 e))
  have hpow : ∀ (k : ℕ) (a b : Fin n),
      ((Matrix.of fun a b : Fin n => B a b) ^ k) (σ a) (σ b) =
        ((Matrix.of fun a b : Fin n => A a b) ^ k) a b := by
    intro k
    induction k with
    | zero =>
      intro a b
      rw [pow_zero, pow_zero, Matrix.one_apply, Matrix.one_apply]
      simp only [hσ.1.eq_iff]
    | succ k ih =>
      intro a b
      rw [pow_succ, pow_succ, Matrix.mul_apply, Matrix.mul_apply,
        ← Equiv.sum_comp (Equiv.ofBijective σ hσ)]
      refine Finset.sum_congr rfl fun c _ => ?_
      show ((Matrix.of fun a b : Fin n => B a b) ^ k) (σ a) (σ c) * B (π c) (π b) = _
      rw [ih a c, hAB c b c.2 b.2]
      rfl
  unfold expm
  rw [dif_pos ⟨hπ.1 i hi, hπ.1 j hj⟩, dif_pos ⟨hi, hj⟩]
  have h1 := hasSum_exp_apply (Matrix.of fun a b : Fin n => B a b) (σ ⟨i, hi⟩) (σ ⟨j, hj⟩)
  have h2 := hasSum_exp_apply (Matrix.of fun a b : Fin n => A a b) ⟨i, hi⟩ ⟨j, hj⟩
  simp only [hpow] at h1
  exact h1.unique h2

/-- **C122** (flow integral).  With the renumbered matrices and initial probabilities, all else
equal, the flow integral clustering raises the same exception or holds the renumbered matrices
and covariances, over the same grid. -/
theorem C122_flow {π : Nat → Nat} (inp inp' : Input K) (hπ : PermBelow inp.n π)
    (h : RelInput π inp inp') : RelRes (RelObj inp.n π) (construct inp) (construct inp') :=
  construct_ren hπ h

/-! ### partitions -/

/-- The clusters with the nodes renumbered. -/
def renameClusters (π : Nat → Nat) (cl : List (Finset Nat)) : List (Finset Nat) :=
  cl.map (Finset.image π)

/-- `cl` is a partition of the nodes with the largest stability, whatever its dictionary. -/
def Best (n : Nat) (S : Mat K) (cl : List (Finset Nat)) : Prop :=
  IsPartition n cl ∧ ∀ cl' d d', IsPartition n cl' →
    Louvain.stability S ⟨n, cl', d'⟩ ≤ Louvain.stability S ⟨n, cl, d⟩

theorem IsPartition.lt {n : Nat} {cl : List (Finset Nat)} (h : IsPartition n cl) {c : Finset Nat}
    (hc : c ∈ cl) {v : Nat} (hv : v ∈ c) : v < n := by
  by_contra hlt
  obtain ⟨k, hk, rfl⟩ := List.getElem_of_mem hc
  exact (h v).2 (by omega) k ⟨_, List.getElem?_eq_getElem hk, hv⟩

theorem at_rename {n : Nat} {π : Nat → Nat} (hπ : PermBelow n π) {cl : List (Finset Nat)}
    (h : ∀ c ∈ cl, ∀ v ∈ c, v < n) {k v : Nat} (hv : v < n) :
    At (renameClusters π cl) k (π v) ↔ At cl k v := by
  unfold At renameClusters
  rw [List.getElem?_map]
  cases hc : cl[k]? with
  | none => simp
  | some c =>
    simp only [Option.map_some, Option.some.injEq, exists_eq_left', Finset.mem_image]
    constructor
    · rintro ⟨w, hw, e⟩
      have := hπ.2 w v (h c (List.mem_of_getElem? hc) w hw) hv e
      rwa [← this]
    · exact fun hv => ⟨v, hv, rfl⟩

theorem isPartition_rename {n : Nat} {π : Nat → Nat} (hπ : PermBelow n π) {cl : List (Finset Nat)}
    (h : IsPartition n cl) : IsPartition n (renameClusters π cl) := by
  have hb : ∀ c ∈ cl, ∀ v ∈ c, v < n := fun c hc v hv => IsPartition.lt h hc hv
  intro v
  constructor
  · intro hv
    obtain ⟨u, hu, rfl⟩ := hπ.surj hv
    obtain ⟨k, hk, huniq⟩ := (h u).1 hu
    exact ⟨k, (at_rename hπ hb hu).2 hk, fun m hm => huniq m ((at_rename hπ hb hu).1 hm)⟩
  · rintro hv k ⟨c, hc, hvc⟩
    unfold renameClusters at hc
    rw [List.getElem?_map] at hc
    obtain ⟨c0, hc0, rfl⟩ := Option.map_eq_some_iff.1 hc
    obtain ⟨w, hw, rfl⟩ := Finset.mem_image.1 hvc
    have := hπ.1 w (hb c0 (List.mem_of_getElem? hc0) w hw)
    omega

/-- **C122** (stability).  A partition of the renumbered nodes has the same stability. -/
theorem C122_stability {n : Nat} {π : Nat → Nat} (hπ : PermBelow n π) {S S' : Mat K}
    (hS : Renumbered n π S S') (cl : List (Finset Nat)) (h : IsPartition n cl)
    (d d' : Nat → Option Int) :
    Louvain.stability S' ⟨n, renameClusters π cl, d'⟩ = Louvain.stability S ⟨n, cl, d⟩ := by
  unfold Louvain.stability Louvain.clusteredAutocov renameClusters
  simp only [List.map_map]
  congr 1
  refine List.map_congr_left fun c hc => ?_
  have hb : ∀ v ∈ c, v < n := fun v hv => IsPartition.lt h hc hv
  have hinj : Set.InjOn π c := fun a ha b hb' e => hπ.2 a b (hb a ha) (hb b hb') e
  simp only [Function.comp, Finset.card_image_of_injOn hinj]
  split
  · simp only [Louvain.blockSum]
    rw [Finset.sum_image hinj]
    refine Finset.sum_congr rfl fun i hi => ?_
    rw [Finset.sum_image hinj]
    exact Finset.sum_congr rfl fun j hj => hS i j (hb i hi) (hb j hj)
  · rfl

theorem PermBelow.inverse {n : Nat} {π : Nat → Nat} (hπ : PermBelow n π) :
    ∃ ρ, PermBelow n ρ ∧ ∀ i, i < n → π (ρ i) = i := by
  classical
  refine ⟨fun k => if hk : k < n then (hπ.surj hk).choose else k, ⟨?_, ?_⟩, ?_⟩
  · intro i hi
    simp only [dif_pos hi]
    exact (hπ.surj hi).choose_spec.1
  · intro i j hi hj e
    simp only [dif_pos hi, dif_pos hj] at e
    have h1 := (hπ.surj hi).choose_spec.2
    have h2 := (hπ.surj hj).choose_spec.2
    rw [e, h2] at h1
    exact h1.symm
  · intro i hi
    simp only [dif_pos hi]
    exact (hπ.surj hi).choose_spec.2

/-- **C122** (best partitions).  The best partitions of the renumbered nodes are the renumbered
best partitions. -/
theorem C122_best {n : Nat} {π : Nat → Nat} (hπ : PermBelow n π) {S S' : Mat K}
    (hS : Renumbered n π S S') (cl : List (Finset Nat)) (h : Best n S cl) :
    Best n S' (renameClusters π cl) := by
  refine ⟨isPartition_rename hπ h.1, fun cl' d d' h' => ?_⟩
  obtain ⟨ρ, hρ, hinv⟩ := hπ.inverse
  have hS' : Renumbered n ρ S' S := by
    intro i j hi hj
    rw [← hS _ _ (hρ.1 i hi) (hρ.1 j hj), hinv i hi, hinv j hj]
  rw [C122_stability hπ hS cl h.1 d d, ← C122_stability hρ hS' cl' h' d' d']
  exact h.2 _ _ _ (isPartition_rename hρ h')

/-- **C122** (communities).  From named contacts to communities.  Take any calls on the network
of some contacts, a rate whose inter-event matrices they computed, and a flow integral
clustering of these matrices with the default initial probabilities.  With other names for the
nodes, the same calls and the same clustering can be made, and the best partitions of every
interval are the same sets of nodes under their new names. -/
theorem C122_communities {L L' : Type} [LinearOrder L] [LinearOrder L'] (f : L → L')
    (hf : Function.Injective f) (evs : List (Event L ℝ)) (sf : Nat → Bool) (ops : List (Op ℝ))
    (st : State ℝ)
    (hst : run ⟨(ofEvents evs).numNodes, (ofEvents evs).events, sf, expm (ofEvents evs).numNodes⟩ ops = .ok st)
    (r : ℝ) (ms : List (Mat ℝ)) (hms : st.interT.lookup r = some ms) (inp : Input ℝ)
    (hn : inp.n = (ofEvents evs).numNodes) (hm : inp.mats = some (.inter ms)) (hp : inp.p1 = none)
    (o : Obj ℝ) (ho : construct inp = .ok o) :
    let N := ofEvents evs
    let N' := ofEvents (evs.map (Event.rename f))
    ∃ st' ms' o', run ⟨N'.numNodes, N'.events, sf, expm N'.numNodes⟩ ops = .ok st' ∧
      st'.interT.lookup r = some ms' ∧ construct { inp with mats := some (.inter ms') } = .ok o' ∧
      o'.iList.length = o.iList.length ∧
      ∃ π, PermBelow N.numNodes π ∧
        (∀ i, i < N.numNodes → ∃ l, N.labels[i]? = some l ∧ N'.labels[π i]? = some (f l)) ∧
        ∀ (k : Nat) (S S' : Mat ℝ), o.iList[k]? = some S → o'.iList[k]? = some S' →
          ∀ cl, Best N.numNodes S cl → Best N'.numNodes S' (renameClusters π cl) := by
  intro N N'
  obtain ⟨h1, π, hπ, hlab, hev⟩ := C122_numbering f hf evs
  have hr : InRange N.numNodes N.events := by
    intro e he
    have := (C31_relabelling evs).2.2.2.1
    exact ⟨(this e.src).1 ⟨e, he, .inl rfl⟩, (this e.tgt).1 ⟨e, he, .inr rfl⟩⟩
  rcases C122_matrices (π := π) ⟨N.numNodes, N.events, sf, expm N.numNodes⟩ (expm N.numNodes) hπ hr
    (C122_expm hπ) ops with ⟨e, e1, _⟩ | ⟨s, s', g1, g2, g3, _⟩
  · rw [hst] at e1; exact absurd e1 (by simp)
  · have hs : s = st := by
      have := g1.symm.trans hst
      exact Except.ok.inj this
    subst hs
    rcases g3 r with ⟨k1, _⟩ | ⟨l, l', k1, k2, k3⟩
    · rw [hms] at k1; exact absurd k1 (by simp)
    · have hl : ms = l := by rw [hms] at k1; exact Option.some.inj k1
      subst hl
      have hrel : RelInput π inp { inp with mats := some (.inter l') } := by
        refine ⟨rfl, ?_, ?_⟩
        · rw [hm, hn]; exact k3
        · simp only [hp]; trivial
      have hπ' : PermBelow inp.n π := by rw [hn]; exact hπ
      rcases C122_flow inp _ hπ' hrel with ⟨e, e1, _⟩ | ⟨o1, o', q1, q2, q3⟩
      · rw [ho] at e1; exact absurd e1 (by simp)
      · have : o1 = o := by rw [ho] at q1; exact (Except.ok.inj q1).symm
        subst this
        refine ⟨s', l', o', ?_, k2, q2, q3.iList.length_eq.symm, π, hπ, hlab, ?_⟩
        · rw [← g2]
          simp only [Env.rename]
          rw [show N'.numNodes = N.numNodes from h1, show N'.events = _ from hev]
        · intro k S S' hS hS' cl hbest
          rw [show N'.numNodes = N.numNodes from h1]
          obtain ⟨b1, rfl⟩ := List.getElem?_eq_some_iff.1 hS
          obtain ⟨b2, rfl⟩ := List.getElem?_eq_some_iff.1 hS'
          have hk := List.forall₂_iff_get.1 q3.iList
          have := hk.2 k b1 b2
          rw [hn] at this
          exact C122_best hπ this cl hbest

/-! ### `sparse_dot_mkl` -/

open Verif.Csr
open Verif.SparseFlow (SInput constructC findC Sq Rep Out integralC tListC timeListC weightsC)

theorem filter_canon (r : List (Nat × K)) (hn : (r.map Prod.fst).Nodup) (hz : ∀ e ∈ r, e.2 ≠ 0) (j : Nat) :
    (r.filter fun e => e.1 == j) = if sumAt r j = 0 then [] else [(j, sumAt r j)] := by
  induction r with
  | nil => simp [sumAt]
  | cons e r ih =>
    rw [List.map_cons, List.nodup_cons] at hn
    have ih := ih hn.2 fun e he => hz e (List.mem_cons_of_mem _ he)
    by_cases h : e.1 = j
    · subst h
      have h0 : (r.filter fun x => x.1 == e.1) = [] := by
        rw [List.filter_eq_nil_iff]
        intro x hx
        simp only [beq_iff_eq]
        intro hxe
        exact hn.1 (hxe ▸ List.mem_map_of_mem hx)
      have h1 : sumAt (e :: r) e.1 = e.2 := by
        simp [sumAt, h0]
      rw [h1, if_neg (hz e List.mem_cons_self)]
      simp [h0]
    · have h1 : sumAt (e :: r) j = sumAt r j := by
        unfold sumAt
        rw [List.filter_cons_of_neg (by simpa using h)]
      rw [h1, ← ih, List.filter_cons_of_neg (by simpa using h)]

theorem sortIndices_canon {n : Nat} {C D : Csr K} (hC : Sq n C) (hD : Sq n D) (rC : C.NoRepeats)
    (rD : D.NoRepeats) (zC : C.NoZeros) (zD : D.NoZeros) (h : EqOn n C.val D.val) :
    sortIndices C = sortIndices D := by
  unfold sortIndices
  rw [hC.rows, hC.cols, hD.rows, hD.cols]
  congr 1
  refine List.map_congr_left fun i hi => ?_
  have hi : i < n := by simpa using hi
  unfold sortRow
  refine List.flatMap_congr fun j hj => ?_
  have hj : j < n := by simpa using hj
  rw [filter_canon _ (rC i (by rw [hC.rows]; exact hi)) (zC i (by rw [hC.rows]; exact hi)),
    filter_canon _ (rD i (by rw [hD.rows]; exact hi)) (zD i (by rw [hD.rows]; exact hi))]
  have := h i hi j hj
  unfold Csr.val at this
  rw [this]

theorem integralC_mkl (inp : SInput K) {n : Nat} (p : Nat → K) {Ts : List (Csr K)} (hT : ∀ T ∈ Ts, Sq n T)
    (ts : List K) (ks : List Nat) :
    List.Forall₂ (fun C D => Sq n C ∧ Sq n D ∧ C.NoRepeats ∧ D.NoRepeats ∧ EqOn n C.val D.val ∧
        ((∀ d ∈ Flow.steps ts, 0 < d) → C.NoZeros ∧ D.NoZeros))
      (integralC { inp with mkl := false } n p Ts ts ks) (integralC { inp with mkl := true } n p Ts ts ks) := by
  have hv := SparseFlow.forall₂_vals hT
  have h1 := SparseFlow.integral_ref (inp := { inp with mkl := false }) (p := p) ks hv ts
  have h2 := SparseFlow.integral_ref (inp := { inp with mkl := true }) (p := p) ks hv ts
  have h3 := integral_mkl (SparseFlow.SInput.values inp n) rfl p (Ts.map Csr.val) ts ks
  refine forall₂_chain ?_ h1 h3 h2.flip
  intro C M M' D g1 g2 g3
  refine ⟨g1.1.1, g3.1.1, g1.2.1, g3.2.1, ?_, fun h => ⟨g1.2.2 h, g3.2.2 h⟩⟩
  intro i hi j hj
  rw [g1.1.2 i hi j hj, g2 i hi j hj, g3.1.2 i hi j hj]

theorem tListC_sq {inp : SInput K} {n : Nat} (hM : ∀ M ∈ inp.matrices, Sq n M) {Ts : List (Csr K)}
    (h : tListC inp = .ok Ts) : ∀ T ∈ Ts, Sq n T := by
  rcases SparseFlow.tList_ref hM with ⟨e, h1, _⟩ | ⟨Ts1, Ts', h1, _, _, h4⟩
  · rw [h] at h1; exact absurd h1 (by simp)
  · rw [h] at h1
    have := Except.ok.inj h1
    subst this
    intro T hT
    obtain ⟨k, hk, rfl⟩ := List.getElem_of_mem hT
    have := (List.forall₂_iff_get.1 h4).2 k hk (by rw [← h4.length_eq]; exact hk)
    exact this.1

/-- **C123** (values).  Whether `sparse_dot_mkl` is installed or not, whatever the tolerance of
the trimming: the constructor raises the same exception, or the two objects have the same
matrices, times and grid, and covariances with the same values. -/
theorem C123_values (inp : SInput K) (n : Nat) (hM : ∀ M ∈ inp.matrices, Sq n M) :
    (∃ e, constructC { inp with mkl := false } = .error e ∧ constructC { inp with mkl := true } = .error e) ∨
    ∃ o o', constructC { inp with mkl := false } = .ok o ∧ constructC { inp with mkl := true } = .ok o' ∧
      o' = { o with iList := o'.iList } ∧
      List.Forall₂ (fun A A' => EqOn n A.toarray A'.toarray ∧ A'.w = A.w) o.iList o'.iList := by
  have hm : tListC { inp with mkl := false } = tListC { inp with mkl := true } := rfl
  unfold constructC
  rw [hm]
  cases hT : tListC { inp with mkl := true } with
  | error e => exact .inl ⟨e, rfl, rfl⟩
  | ok Ts =>
    have hsq := tListC_sq (inp := { inp with mkl := true }) hM hT
    cases Ts with
    | nil => exact .inl ⟨_, rfl, rfl⟩
    | cons T0 Tr =>
      simp only
      have htl : timeListC { inp with mkl := false } (T0 :: Tr).length =
          timeListC { inp with mkl := true } (T0 :: Tr).length := rfl
      rw [htl]
      generalize timeListC { inp with mkl := true } (T0 :: Tr).length = ts
      cases Flow.gridIndices inp.reverse ts inp.grid with
      | error e => exact .inl ⟨e, rfl, rfl⟩
      | ok g =>
        simp only
        have hn := (hsq T0 List.mem_cons_self).rows
        by_cases h0 : T0.nrows = 0
        · rw [if_pos h0, if_pos h0]; exact .inl ⟨_, rfl, rfl⟩
        · rw [if_neg h0, if_neg h0]
          refine .inr ⟨_, _, rfl, rfl, rfl, ?_⟩
          simp only
          rw [hn, List.forall₂_map_left_iff, List.forall₂_map_right_iff]
          refine (integralC_mkl inp _ hsq ts _).imp fun C D h => ⟨?_, rfl⟩
          obtain ⟨c1, d1, _, _, he, _⟩ := h
          intro i hi j hj
          rw [toarray_mk C _ _ c1.wf i j (by rw [c1.rows]; exact hi),
            toarray_mk D _ _ d1.wf i j (by rw [d1.rows]; exact hi), he i hi j hj]

/-- **C123**.  With increasing times the two objects are the same, array by array: the same
communities are found for the same random choices. -/
theorem C123_same (inp : SInput K) (n : Nat) (hM : ∀ M ∈ inp.matrices, Sq n M)
    (hts : ∀ ts, inp.times = some ts → ts.Pairwise (· < ·)) :
    constructC { inp with mkl := true } = constructC { inp with mkl := false } := by
  have hm : tListC { inp with mkl := false } = tListC { inp with mkl := true } := rfl
  unfold constructC
  rw [hm]
  cases hT : tListC { inp with mkl := true } with
  | error e => rfl
  | ok Ts =>
    have hsq := tListC_sq (inp := { inp with mkl := true }) hM hT
    cases Ts with
    | nil => rfl
    | cons T0 Tr =>
      simp only
      have htl : timeListC { inp with mkl := false } (T0 :: Tr).length =
          timeListC { inp with mkl := true } (T0 :: Tr).length := rfl
      rw [htl]
      have hpos : ∀ d ∈ Flow.steps (timeListC { inp with mkl := true } (T0 :: Tr).length), 0 < d := by
        have hinc : (inp.times.getD ((List.range ((T0 :: Tr).length + 1)).map fun k : Nat => (k : K))).Pairwise
            (· < ·) := by
          cases ht : inp.times with
          | some ts => exact hts ts ht
          | none =>
            show ((List.range _).map _).Pairwise _
            rw [List.pairwise_map]
            exact List.pairwise_lt_range.imp fun h => Nat.cast_lt.2 h
        exact Flow.steps_pos hinc inp.reverse
      generalize timeListC { inp with mkl := true } (T0 :: Tr).length = ts at *
      cases Flow.gridIndices inp.reverse ts inp.grid with
      | error e => rfl
      | ok g =>
        simp only
        have hn := (hsq T0 List.mem_cons_self).rows
        by_cases h0 : T0.nrows = 0
        · rw [if_pos h0, if_pos h0]
        · rw [if_neg h0, if_neg h0, hn]
          have hall := integralC_mkl inp (inp.p1.getD (uniform n)) hsq ts (g.map (·.1))
          have key : ∀ (l l' : List (Csr K)), List.Forall₂ (fun C D => Sq n C ∧ Sq n D ∧ C.NoRepeats ∧
              D.NoRepeats ∧ EqOn n C.val D.val ∧
              ((∀ d ∈ Flow.steps ts, 0 < d) → C.NoZeros ∧ D.NoZeros)) l l' →
              l'.map (fun PT => mkAutocov PT (weightsC n (inp.p1.getD (uniform n))) true) =
                l.map fun PT => mkAutocov PT (weightsC n (inp.p1.getD (uniform n))) true := by
            intro l l' h
            induction h with
            | nil => rfl
            | cons h _ ih =>
              obtain ⟨c1, d1, rc, rd, he, hz⟩ := h
              obtain ⟨zc, zd⟩ := hz hpos
              rw [List.map_cons, List.map_cons, ih]
              congr 1
              unfold mkAutocov
              simp only [if_true, sortIndices_canon c1 d1 rc rd zc zd he]
          rw [key _ _ hall]

/-! ### the hypotheses are met -/

/-- Three nodes with other names: `-1`, `-2`, `-3` for `1`, `2`, `3`, in the opposite order. -/
example : Function.Injective (fun x : ℤ => -x) ∧
    (ofEvents ([⟨1, 2, 0, 2⟩, ⟨2, 3, 1, 3⟩] : List (Event ℤ ℚ))).labels = [1, 2, 3] ∧
    (ofEvents (([⟨1, 2, 0, 2⟩, ⟨2, 3, 1, 3⟩] : List (Event ℤ ℚ)).map (Event.rename fun x => -x))).labels =
      [-3, -2, -1] ∧
    (ofEvents (([⟨1, 2, 0, 2⟩, ⟨2, 3, 1, 3⟩] : List (Event ℤ ℚ)).map (Event.rename fun x => -x))).events =
      [⟨2, 1, 0, 2⟩, ⟨1, 0, 1, 3⟩] :=
  ⟨neg_injective, by decide +kernel, by decide +kernel, by decide +kernel⟩

/-- The numbers of the example are a permutation, and the events are in its range. -/
example : PermBelow 3 (fun i => 2 - i) ∧ InRange 3 ([⟨0, 1, 0, 2⟩, ⟨1, 2, 1, 3⟩] : List (Event Nat ℚ)) := by
  refine ⟨⟨?_, ?_⟩, ?_⟩
  · intro i hi; show 2 - i < 3; omega
  · intro i j hi hj (h : 2 - i = 2 - j); omega
  · unfold InRange; decide +kernel

/-- For every list of contacts without self-loops the matrices of every rate can be computed,
and a flow integral clustering of them can be made: the hypotheses of `C122_communities`. -/
theorem communities_possible {L : Type} [LinearOrder L] (evs : List (Event L ℝ)) (hne : evs ≠ [])
    (hloop : ∀ e ∈ evs, e.src ≠ e.tgt) (sf : Nat → Bool) (r : ℝ) (hr0 : 0 ≤ r) :
    ∃ st ms o, run ⟨(ofEvents evs).numNodes, (ofEvents evs).events, sf, expm (ofEvents evs).numNodes⟩
        [.inter r false none none] = .ok st ∧ st.interT.lookup r = some ms ∧
      construct (⟨(ofEvents evs).numNodes, true, some (.inter ms), none, none, none, false, 0, true,
        Real.sqrt⟩ : Input ℝ) = .ok o := by
  have hr : InRange (ofEvents evs).numNodes (ofEvents evs).events := by
    intro e he
    have := (C31_relabelling evs).2.2.2.1
    exact ⟨(this e.src).1 ⟨e, he, .inl rfl⟩, (this e.tgt).1 ⟨e, he, .inr rfl⟩⟩
  have hnl : NoSelfLoops (ofEvents evs).events := by
    intro e he
    obtain ⟨f, hf, rfl⟩ := (mem_events evs e).1 he
    intro h
    have h1 := (mem_allLabels evs f.src).2 ⟨f, hf, .inl rfl⟩
    exact hloop f hf ((List.idxOf_inj h1).1 h)
  have hev : (ofEvents evs).events ≠ [] := by
    intro h
    have := (events_perm evs).length_eq
    rw [h, List.length_nil, List.length_map] at this
    exact hne (List.length_eq_zero_iff.1 this.symm)
  obtain ⟨Lp, hLp, hall⟩ := C34_transition_stochastic hr hnl hev sf none none
  obtain ⟨hne', _⟩ := hall r false hr0
  obtain ⟨M, l, hl⟩ := List.exists_cons_of_ne_nil hne'
  refine ⟨⟨some Lp, [(r, M :: l)], []⟩, M :: l, ?_⟩
  rw [exists_and_left, exists_and_left]
  refine ⟨?_, ?_, ?_⟩
  · show ((State.inter _ State.fresh r false none none) >>= pure) = _
    simp only [State.inter, State.ensureLaps, State.fresh, hLp, List.lookup_nil, hl]
    rfl
  · simp only [List.lookup_cons, beq_self_eq_true]
  · simp only [construct, tList, products, Bool.false_eq_true, if_false, timeList, Option.getD_none,
      gridIndices]
    rw [List.range_succ_eq_map]
    exact ⟨_, rfl⟩

end Verif.Rename
