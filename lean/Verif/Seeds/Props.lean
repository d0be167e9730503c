import Verif.Seeds.Lemmas
import Verif.Seeds.Spec
import Verif.Parallel.Props
import Mathlib.Data.List.Rotate

/-!
# C124: a run can be repeated from its seed
-/

set_option linter.unusedSectionVars false

namespace Verif.Seeds

open Verif.Partition
open Verif.Louvain (Params updatePart Sched)

variable {K : Type} [Field K] [LinearOrder K] [IsStrictOrderedRing K] {C E G : Type}

/-! ## Seeds -/

theorem fromBytes_lt (b : List (Fin 256)) (a : Nat) :
    b.foldl (fun a x => a * 256 + x.val) a < (a + 1) * 256 ^ b.length := by
  induction b generalizing a with
  | nil => simp
  | cons x b ih =>
    rw [List.foldl_cons, List.length_cons]
    refine lt_of_lt_of_le (ih _) ?_
    rw [pow_succ, show (a + 1) * (256 ^ b.length * 256) = ((a + 1) * 256) * 256 ^ b.length by ring]
    exact Nat.mul_le_mul_right _ (by have := x.isLt; omega)

theorem fromBytes_four (f : Fin 4 → Fin 256) :
    fromBytes (List.ofFn f) = (f 0).val * 16777216 + (f 1).val * 65536 + (f 2).val * 256 + (f 3).val := by
  simp only [fromBytes, List.ofFn_succ, List.ofFn_zero, List.foldl_cons, List.foldl_nil]
  change (((0 * 256 + (f 0).val) * 256 + (f 1).val) * 256 + (f 2).val) * 256 + (f 3).val = _
  ring

/-- **C124.** `n_random_seeds(n)`: `n` seeds, all accepted by the generator; different bytes from
the operating system give different seeds, and every list of `n` acceptable seeds can come out. -/
theorem C124_seeds (ur : Nat → Fin 4 → Fin 256) (n : Nat) :
    (nRandomSeeds ur n).length = n ∧
    (∀ s ∈ nRandomSeeds ur n, seedOk (s : Int)) ∧
    (∀ i < n, ∀ j < n, (nRandomSeeds ur n)[i]? = (nRandomSeeds ur n)[j]? → ur i = ur j) ∧
    (∀ l : List Nat, l.length = n → (∀ s ∈ l, seedOk (s : Int)) → ∃ ur', nRandomSeeds ur' n = l) := by
  refine ⟨by simp [nRandomSeeds], ?_, ?_, ?_⟩
  · intro s hs
    obtain ⟨i, _, rfl⟩ := List.mem_map.1 hs
    rw [fromBytes_four]
    have h0 := (ur i 0).isLt; have h1 := (ur i 1).isLt
    have h2 := (ur i 2).isLt; have h3 := (ur i 3).isLt
    constructor
    · positivity
    · have : (ur i 0).val * 16777216 + (ur i 1).val * 65536 + (ur i 2).val * 256 + (ur i 3).val
          < 4294967296 := by omega
      exact_mod_cast this
  · intro i hi j hj h
    simp only [nRandomSeeds, List.getElem?_map, List.getElem?_range hi, List.getElem?_range hj,
      Option.map_some, Option.some.injEq] at h
    rw [fromBytes_four, fromBytes_four] at h
    have a0 := (ur i 0).isLt; have a1 := (ur i 1).isLt
    have a2 := (ur i 2).isLt; have a3 := (ur i 3).isLt
    have b0 := (ur j 0).isLt; have b1 := (ur j 1).isLt
    have b2 := (ur j 2).isLt; have b3 := (ur j 3).isLt
    funext k
    apply Fin.ext
    match k with
    | 0 => omega
    | 1 => omega
    | 2 => omega
    | 3 => omega
  · intro l hl hs
    refine ⟨fun i k => ⟨(l.getD i 0) / 256 ^ (3 - k.val) % 256, Nat.mod_lt _ (by norm_num)⟩, ?_⟩
    apply List.ext_getElem?
    intro i
    by_cases hi : i < n
    · simp only [nRandomSeeds, List.getElem?_map, List.getElem?_range hi, Option.map_some]
      have hi' : i < l.length := by omega
      rw [List.getElem?_eq_getElem hi', fromBytes_four]
      have hlt : l[i] < 4294967296 := by
        have := (hs _ (List.getElem_mem hi')).2
        exact_mod_cast this
      have hg : l.getD i 0 = l[i] := by simp [hi']
      congr 1
      simp only [hg]
      change l[i] / 256 ^ 3 % 256 * 16777216 + l[i] / 256 ^ 2 % 256 * 65536
        + l[i] / 256 ^ 1 % 256 * 256 + l[i] / 256 ^ 0 % 256 = l[i]
      generalize l[i] = x at hlt
      norm_num
      omega
    · rw [List.getElem?_eq_none (by simp [nRandomSeeds]; omega),
        List.getElem?_eq_none (by omega)]

/-! ## One run -/

/-- The call, once the generator is chosen. -/
theorem find_none (o : Ops C K E) (rng : Rng G) (li : Listing) (par : Params K) (x : Obj C)
    (h : Heap G) :
    find o rng li par none x h =
      (match search o rng li par x.clu (h.gens x.ref) with
        | (.error e, g') => (.error (.cls e), x, { h with gens := Function.update h.gens x.ref g' })
        | (.ok (n, p), g') => (.ok n, { x with clu := o.setPart x.clu p },
            { h with gens := Function.update h.gens x.ref g' })) := rfl

theorem find_some (o : Ops C K E) (rng : Rng G) (li : Listing) (par : Params K) (s : Int)
    (hs : seedOk s) (x : Obj C) (h : Heap G) :
    find o rng li par (some s) x h =
      (match search o rng li par x.clu (rng.seed s.toNat) with
        | (.error e, g') => (.error (.cls e), x, { h with gens := Function.update h.gens x.ref g' })
        | (.ok (n, p), g') => (.ok n, { x with clu := o.setPart x.clu p },
            { h with gens := Function.update h.gens x.ref g' })) := by
  unfold find
  simp only [if_pos hs] <;> rfl

/-- What a call does to the generators and to the reference of the object. -/
theorem find_frame (o : Ops C K E) (rng : Rng G) (li : Listing) (par : Params K) (sd : Option Int)
    (x : Obj C) (h : Heap G) :
    (find o rng li par sd x h).2.1.ref = x.ref ∧ (find o rng li par sd x h).2.2.next = h.next ∧
      ∀ r, r ≠ x.ref → (find o rng li par sd x h).2.2.gens r = h.gens r := by
  have key : ∀ q : Except E (Nat × Part) × G,
      (match q with
        | (.error e, g') => ((.error (.cls e), x,
            { h with gens := Function.update h.gens x.ref g' }) : Except (Exc E) Nat × Obj C × Heap G)
        | (.ok (n, p), g') => (.ok n, { x with clu := o.setPart x.clu p },
            { h with gens := Function.update h.gens x.ref g' })).2.1.ref = x.ref ∧
      (match q with
        | (.error e, g') => ((.error (.cls e), x,
            { h with gens := Function.update h.gens x.ref g' }) : Except (Exc E) Nat × Obj C × Heap G)
        | (.ok (n, p), g') => (.ok n, { x with clu := o.setPart x.clu p },
            { h with gens := Function.update h.gens x.ref g' })).2.2.next = h.next ∧
      ∀ r, r ≠ x.ref → (match q with
        | (.error e, g') => ((.error (.cls e), x,
            { h with gens := Function.update h.gens x.ref g' }) : Except (Exc E) Nat × Obj C × Heap G)
        | (.ok (n, p), g') => (.ok n, { x with clu := o.setPart x.clu p },
            { h with gens := Function.update h.gens x.ref g' })).2.2.gens r = h.gens r := by
    intro q
    obtain ⟨q, g'⟩ := q
    cases q with
    | error e => exact ⟨rfl, rfl, fun r hr => by simp [Function.update_of_ne hr]⟩
    | ok q => exact ⟨rfl, rfl, fun r hr => by simp [Function.update_of_ne hr]⟩
  cases sd with
  | none => rw [find_none]; exact key _
  | some s =>
    by_cases hs : seedOk s
    · rw [find_some _ _ _ _ _ hs]; exact key _
    · unfold find
      simp only [if_neg hs]
      exact ⟨trivial, trivial, fun _ _ => trivial⟩

/-- What a call shows, from the generator it starts with. -/
theorem find_shown (o : Ops C K E) (rng : Rng G) (li : Listing) (par : Params K) (x x' : Obj C)
    (h h' : Heap G) (sd sd' : Option Int) (g : G)
    (hg : (∃ s, seedOk s ∧ sd = some s ∧ rng.seed s.toNat = g) ∨ (sd = none ∧ h.gens x.ref = g))
    (hg' : (∃ s, seedOk s ∧ sd' = some s ∧ rng.seed s.toNat = g) ∨ (sd' = none ∧ h'.gens x'.ref = g))
    (hx : x.clu = x'.clu) :
    Shown (find o rng li par sd x h) = Shown (find o rng li par sd' x' h') ∧
      (find o rng li par sd x h).2.2.gens x.ref = (find o rng li par sd' x' h').2.2.gens x'.ref := by
  have key : ∀ (x : Obj C) (h : Heap G) (sd : Option Int),
      ((∃ s, seedOk s ∧ sd = some s ∧ rng.seed s.toNat = g) ∨ (sd = none ∧ h.gens x.ref = g)) →
      find o rng li par sd x h =
      (match search o rng li par x.clu g with
        | (.error e, g') => (.error (.cls e), x, { h with gens := Function.update h.gens x.ref g' })
        | (.ok (n, p), g') => (.ok n, { x with clu := o.setPart x.clu p },
            { h with gens := Function.update h.gens x.ref g' })) := by
    intro x h sd hg
    rcases hg with ⟨s, hs, rfl, rfl⟩ | ⟨rfl, rfl⟩
    · exact find_some _ _ _ _ _ hs _ _
    · exact find_none _ _ _ _ _ _
  rw [key x h sd hg, key x' h' sd' hg', ← hx]
  obtain ⟨q, g'⟩ := search o rng li par x.clu g
  cases q with
  | error e => simp [Shown, hx]
  | ok q => simp [Shown]

/-- **C124.** A search that is given a seed: two objects with the same arrays and the same
partition show the same number of loops and the same partition, and leave their generators in the
same state, whatever generators they hold and whatever has been drawn from these before.  The
other generators are not touched.  A seed that is not accepted changes nothing. -/
theorem C124_seeded (o : Ops C K E) (rng : Rng G) (li : Listing) (par : Params K) (s : Int)
    (x : Obj C) (h : Heap G) :
    (seedOk s → ∀ (x' : Obj C) (h' : Heap G), x.clu = x'.clu →
      Shown (find o rng li par (some s) x h) = Shown (find o rng li par (some s) x' h') ∧
      (find o rng li par (some s) x h).2.2.gens x.ref
        = (find o rng li par (some s) x' h').2.2.gens x'.ref) ∧
    (∀ r, r ≠ x.ref → (find o rng li par (some s) x h).2.2.gens r = h.gens r) ∧
    (¬ seedOk s → find o rng li par (some s) x h = (.error .badSeed, x, h)) := by
  refine ⟨fun hs x' h' hx => ?_, (find_frame o rng li par (some s) x h).2.2, fun hs => ?_⟩
  · exact find_shown o rng li par x x' h h' (some s) (some s) (rng.seed s.toNat)
      (.inl ⟨s, hs, rfl, rfl⟩) (.inl ⟨s, hs, rfl, rfl⟩) hx
  · unfold find
    simp only [if_neg hs]

/-- Every accepted call starts from some state of the generator. -/
theorem find_start (o : Ops C K E) (rng : Rng G) (li : Listing) (par : Params K) (sd : Option Int)
    (hs : ∀ s, sd = some s → seedOk s) (x : Obj C) (h : Heap G) :
    ∃ g, find o rng li par sd x h =
      (match search o rng li par x.clu g with
        | (.error e, g') => (.error (.cls e), x, { h with gens := Function.update h.gens x.ref g' })
        | (.ok (n, p), g') => (.ok n, { x with clu := o.setPart x.clu p },
            { h with gens := Function.update h.gens x.ref g' })) := by
  cases sd with
  | none => exact ⟨_, find_none o rng li par x h⟩
  | some s => exact ⟨_, find_some o rng li par s (hs s rfl) x h⟩

/-- **C124.** The runs with a generator are among the runs of the earlier theorems, which hold for
all orders of the nodes: for every generator and every argument that is accepted there are orders
with which the models of C26–C30 and C69 give the same result. -/
theorem C124_covered (rng : Rng G) (li : Listing) (par : Params K) (sd : Option Int)
    (hs : ∀ s, sd = some s → seedOk s) :
    (∀ (x : Obj (Verif.Louvain.Clu K)) (h : Heap G), ∃ sc : Sched,
      (∀ n p, Verif.Louvain.findLouvain sc par x.clu = .ok (n, p) →
        Shown (find denseOps rng li par sd x h) = (.ok n, { x.clu with part := p })) ∧
      (∀ e, Verif.Louvain.findLouvain sc par x.clu = .error e →
        Shown (find denseOps rng li par sd x h) = (.error (.cls e), x.clu))) ∧
    (∀ (x : Obj (Verif.SparseLouvain.SClu K)) (h : Heap G), ∃ sc : Sched,
      (∀ n p, Verif.SparseLouvain.sFindLouvain sc par x.clu = .ok (n, p) →
        Shown (find sparseOps rng li par sd x h) = (.ok n, { x.clu with part := p })) ∧
      (∀ e, Verif.SparseLouvain.sFindLouvain sc par x.clu = .error e →
        Shown (find sparseOps rng li par sd x h) = (.error (.cls e), x.clu))) := by
  constructor
  · intro x h
    obtain ⟨g, hg⟩ := find_start denseOps rng li par sd hs x h
    obtain ⟨sc, hsc⟩ := search_dense rng li par x.clu g
    refine ⟨sc, fun n p hr => ?_, fun e hr => ?_⟩ <;>
    · rw [hg]
      rw [hr] at hsc
      generalize search denseOps rng li par x.clu g = q at hsc
      obtain ⟨q, g'⟩ := q
      simp only at hsc
      subst hsc
      rfl
  · intro x h
    obtain ⟨g, hg⟩ := find_start sparseOps rng li par sd hs x h
    obtain ⟨sc, hsc⟩ := search_sparse rng li par x.clu g
    refine ⟨sc, fun n p hr => ?_, fun e hr => ?_⟩ <;>
    · rw [hg]
      rw [hr] at hsc
      generalize search sparseOps rng li par x.clu g = q at hsc
      obtain ⟨q, g'⟩ := q
      simp only at hsc
      subst hsc
      rfl

/-! ## Programs -/

theorem newState_ok (rng : Rng G) (h : Heap G) (fresh : G) (sd : Option Int) (r : Nat) (h' : Heap G)
    (he : newState (E := E) rng h fresh sd = .ok (r, h')) :
    r = h.next ∧ h'.next = h.next + 1 ∧ (∀ r', r' ≠ h.next → h'.gens r' = h.gens r') ∧
      (∀ s, sd = some s → seedOk s ∧ h'.gens r = rng.seed s.toNat) := by
  unfold newState at he
  cases sd with
  | none =>
    simp only [Except.ok.injEq, Prod.mk.injEq] at he
    obtain ⟨rfl, rfl⟩ := he
    exact ⟨rfl, rfl, fun r' hr => by simp [Function.update_of_ne hr], fun s hs => by simp at hs⟩
  | some s =>
    simp only at he
    split at he
    · rename_i hok
      simp only [Except.ok.injEq, Prod.mk.injEq] at he
      obtain ⟨rfl, rfl⟩ := he
      refine ⟨rfl, rfl, fun r' hr => by simp [Function.update_of_ne hr], fun s' hs => ?_⟩
      injection hs with hs
      subst hs
      exact ⟨hok, by simp⟩
    · simp at he

/-- One command elsewhere. -/
theorem step_elsewhere (o : Ops C K E) (rng : Rng G) (i r : Nat) (s : Session C G) (cmd : Cmd C K E G)
    (x : Obj C) (hx : s.objs[i]? = some x) (hr : r < s.heap.next)
    (ho : ∀ j y, j ≠ i → s.objs[j]? = some y → y.ref ≠ r) (he : Elsewhere i r cmd) :
    (s.step o rng cmd).objs[i]? = some x ∧ r < (s.step o rng cmd).heap.next ∧
      (s.step o rng cmd).heap.gens r = s.heap.gens r ∧
      (∀ j y, j ≠ i → (s.step o rng cmd).objs[j]? = some y → y.ref ≠ r) := by
  cases cmd with
  | state fresh sd =>
    simp only [Session.step]
    cases hn : newState (E := E) rng s.heap fresh sd with
    | error e => exact ⟨hx, hr, rfl, ho⟩
    | ok q =>
      obtain ⟨r', h'⟩ := q
      obtain ⟨-, h2, h3, -⟩ := newState_ok rng _ _ _ _ _ hn
      exact ⟨hx, by simp only; omega, h3 _ (by omega), ho⟩
  | reseed r' sd =>
    simp only [Session.step]
    split
    · exact ⟨hx, hr, by simp [Function.update_of_ne (Ne.symm he)], ho⟩
    · exact ⟨hx, hr, rfl, ho⟩
  | draw r' f =>
    simp only [Session.step]
    exact ⟨hx, hr, by simp [Function.update_of_ne (Ne.symm he)], ho⟩
  | make fresh c st sd =>
    simp only [Session.step]
    have hi : i < s.objs.length := by
      by_contra hh
      rw [List.getElem?_eq_none (by omega)] at hx
      simp at hx
    cases hn : newClu rng s.heap fresh c st sd with
    | error e => exact ⟨hx, hr, rfl, ho⟩
    | ok q =>
      obtain ⟨y, h'⟩ := q
      have hy : y.ref ≠ r ∧ r < h'.next ∧ h'.gens r = s.heap.gens r := by
        unfold newClu at hn
        cases c with
        | error e => simp at hn
        | ok c =>
          cases st with
          | some r' =>
            simp only [Except.ok.injEq, Prod.mk.injEq] at hn
            obtain ⟨rfl, rfl⟩ := hn
            refine ⟨fun h => he ?_, hr, rfl⟩
            simp only at h
            rw [h]
          | none =>
            simp only at hn
            cases hm : newState (E := E) rng s.heap fresh sd with
            | error e => rw [hm] at hn; simp at hn
            | ok q =>
              obtain ⟨r', h''⟩ := q
              rw [hm] at hn
              simp only [Except.ok.injEq, Prod.mk.injEq] at hn
              obtain ⟨rfl, rfl⟩ := hn
              obtain ⟨h1, h2, h3, -⟩ := newState_ok rng _ _ _ _ _ hm
              exact ⟨by simp only; omega, by omega, h3 _ (by omega)⟩
      refine ⟨by simp only [List.getElem?_append_left hi]; exact hx, hy.2.1, hy.2.2, ?_⟩
      intro j z hj hz
      simp only at hz
      by_cases hjl : j < s.objs.length
      · rw [List.getElem?_append_left hjl] at hz
        exact ho j z hj hz
      · rw [List.getElem?_append_right (by omega)] at hz
        have : z = y := by
          cases hjj : j - s.objs.length with
          | zero => rw [hjj] at hz; simpa using hz.symm
          | succ k => rw [hjj] at hz; simp at hz
        rw [this]
        exact hy.1
  | find j li par sd =>
    simp only [Session.step]
    cases hj : s.objs[j]? with
    | none => exact ⟨hx, hr, rfl, ho⟩
    | some y =>
      have hy := ho j y he hj
      obtain ⟨f1, f2, f3⟩ := find_frame o rng li par sd y s.heap
      have hji : j ≠ i := he
      refine ⟨by simp only [List.getElem?_set_ne hji]; exact hx, lt_of_lt_of_eq hr f2.symm,
        f3 r (Ne.symm hy), ?_⟩
      intro j' z hj' hz
      simp only at hz
      by_cases hjj : j = j'
      · subst hjj
        rw [List.getElem?_set_self (by
          by_contra hh
          rw [List.getElem?_eq_none (by omega)] at hj
          simp at hj)] at hz
        injection hz with hz
        rw [← hz, f1]
        exact hy
      · rw [List.getElem?_set_ne hjj] at hz
        exact ho j' z hj' hz

/-- **C124.** An object built with a seed and no generator, then any number of other commands that
neither use this object nor hand its generator on: a search of the object that is given no seed
shows what a search with the seed of the construction shows on an object with the same arrays, in
this or any other program. -/
theorem C124_history (o : Ops C K E) (rng : Rng G) (s : Session C G) (hv : Valid s) (fresh : G)
    (c : C) (sd : Int) (hsd : seedOk sd) (cmds : List (Cmd C K E G))
    (he : ∀ cmd ∈ cmds, Elsewhere s.objs.length s.heap.next cmd) :
    ∃ x, ((s.step o rng (.make fresh (.ok c) none (some sd))).run o rng cmds).objs[s.objs.length]?
        = some x ∧
      ∀ (li : Listing) (par : Params K) (x' : Obj C) (h' : Heap G), x'.clu = c →
        Shown (find o rng li par none x
          ((s.step o rng (.make fresh (.ok c) none (some sd))).run o rng cmds).heap)
        = Shown (find o rng li par (some sd) x' h') := by
  have hstep : s.step o rng (.make fresh (.ok c) none (some sd))
      = { objs := s.objs ++ [⟨c, s.heap.next⟩],
          heap := ⟨Function.update s.heap.gens s.heap.next (rng.seed sd.toNat), s.heap.next + 1⟩ } := by
    simp only [Session.step, newClu, newState, if_pos hsd]
  rw [hstep]
  have key : ∀ (l : List (Cmd C K E G)) (t : Session C G),
      t.objs[s.objs.length]? = some ⟨c, s.heap.next⟩ → s.heap.next < t.heap.next →
      t.heap.gens s.heap.next = rng.seed sd.toNat →
      (∀ j y, j ≠ s.objs.length → t.objs[j]? = some y → y.ref ≠ s.heap.next) →
      (∀ cmd ∈ l, Elsewhere s.objs.length s.heap.next cmd) →
      (t.run o rng l).objs[s.objs.length]? = some ⟨c, s.heap.next⟩ ∧
        (t.run o rng l).heap.gens s.heap.next = rng.seed sd.toNat := by
    intro l
    induction l with
    | nil => intro t h1 _ h3 _ _; exact ⟨h1, h3⟩
    | cons cmd l ih =>
      intro t h1 h2 h3 h4 h5
      obtain ⟨k1, k2, k3, k4⟩ := step_elsewhere o rng s.objs.length s.heap.next t cmd _ h1 h2 h4
        (h5 cmd (by simp))
      exact ih (t.step o rng cmd) k1 k2 (k3.trans h3) k4 (fun q hq => h5 q (by simp [hq]))
  obtain ⟨k1, k2⟩ := key cmds
    { objs := s.objs ++ [⟨c, s.heap.next⟩],
      heap := ⟨Function.update s.heap.gens s.heap.next (rng.seed sd.toNat), s.heap.next + 1⟩ }
    (by simp) (by simp) (by simp) (by
    intro j y hj hy
    simp only at hy
    by_cases hjl : j < s.objs.length
    · rw [List.getElem?_append_left hjl] at hy
      have := hv y (List.mem_of_getElem? hy)
      omega
    · rw [List.getElem?_eq_none (by simp; omega)] at hy
      simp at hy) he
  refine ⟨_, k1, fun li par x' h' hx => ?_⟩
  exact (find_shown o rng li par _ x' _ h' none (some sd) (rng.seed sd.toNat)
    (.inr ⟨rfl, k2⟩) (.inl ⟨sd, hsd, rfl, rfl⟩) hx.symm).1

/-- **C124.** Two objects that hold the same generator: after a search of the first with a seed, a
search of the second without one does not depend on anything drawn before; if they hold different
generators, the search of the first does not influence that of the second. -/
theorem C124_shared (o : Ops C K E) (rng : Rng G) (li : Listing) (par : Params K) (s : Int)
    (hs : seedOk s) (x y : Obj C) :
    (y.ref = x.ref → ∀ h h' : Heap G,
      Shown (find o rng li par none y (find o rng li par (some s) x h).2.2)
        = Shown (find o rng li par none y (find o rng li par (some s) x h').2.2)) ∧
    (y.ref ≠ x.ref → ∀ h : Heap G,
      Shown (find o rng li par none y (find o rng li par (some s) x h).2.2)
        = Shown (find o rng li par none y h)) := by
  constructor
  · intro hxy h h'
    have := ((C124_seeded o rng li par s x h).1 hs x h' rfl).2
    exact (find_shown o rng li par y y _ _ none none _ (.inr ⟨rfl, rfl⟩)
      (.inr ⟨rfl, by rw [hxy]; exact this.symm⟩) rfl).1
  · intro hxy h
    exact (find_shown o rng li par y y _ _ none none _ (.inr ⟨rfl, rfl⟩)
      (.inr ⟨rfl, ((C124_seeded o rng li par s x h).2.1 y.ref hxy).symm⟩) rfl).1

/-! ## `FlowIntegralClustering.find_louvain_clustering` -/

/-- **C124.** The clustering of one interval of a `FlowIntegralClustering`: with a seed, the
result is that of a search with this seed on the new clustering, whether or not a generator is
given as well; a generator that is given is then left in the state in which that search leaves a
generator, so that what was drawn from it before is forgotten.  Without a seed the search
continues from the generator given. -/
theorem C124_flow (o : Ops C K E) (rng : Rng G) (li : Listing) (par : Params K) (c : C)
    (st : Option Nat) (fresh : G) (h : Heap G) :
    (∀ s, seedOk s → ∃ x, (flowFind o rng li par (.ok c) st (some s) fresh h).2.1 = some x ∧
      ∀ (x' : Obj C) (h' : Heap G), x'.clu = c →
        ((flowFind o rng li par (.ok c) st (some s) fresh h).1, x.clu)
          = Shown (find o rng li par (some s) x' h') ∧
        ∀ r, st = some r → (flowFind o rng li par (.ok c) st (some s) fresh h).2.2.gens r
          = (find o rng li par (some s) x' h').2.2.gens x'.ref) ∧
    (∀ r, st = some r → ∃ x, (flowFind o rng li par (.ok c) st none fresh h).2.1 = some x ∧
      ((flowFind o rng li par (.ok c) st none fresh h).1, x.clu)
        = Shown (find o rng li par none ⟨c, r⟩ h)) := by
  constructor
  · intro s hs
    cases st with
    | none =>
      have hn : newClu (E := E) rng h fresh (.ok c) none (some s)
          = .ok (⟨c, h.next⟩, ⟨Function.update h.gens h.next (rng.seed s.toNat), h.next + 1⟩) := by
        simp only [newClu, newState, if_pos hs]
      refine ⟨(find o rng li par (some s) ⟨c, h.next⟩ _).2.1, by rw [flowFind, hn], ?_⟩
      intro x' h' hx
      have := (C124_seeded o rng li par s ⟨c, h.next⟩
        ⟨Function.update h.gens h.next (rng.seed s.toNat), h.next + 1⟩).1 hs x' h' hx.symm
      refine ⟨?_, fun r hr => by simp at hr⟩
      rw [flowFind, hn]
      exact this.1
    | some r =>
      refine ⟨(find o rng li par (some s) ⟨c, r⟩ h).2.1, rfl, ?_⟩
      intro x' h' hx
      have := (C124_seeded o rng li par s ⟨c, r⟩ h).1 hs x' h' hx.symm
      refine ⟨this.1, fun r' hr => ?_⟩
      injection hr with hr
      subst hr
      exact this.2
  · rintro r rfl
    exact ⟨(find o rng li par none ⟨c, r⟩ h).2.1, rfl, rfl⟩

/-! ## Repetitions -/

theorem newClu_seed (rng : Rng G) (h : Heap G) (fresh : G) (c : C) (v : Int) (hv : seedOk v) :
    newClu (E := E) rng h fresh (.ok c) none (some v)
      = .ok (⟨c, h.next⟩, ⟨Function.update h.gens h.next (rng.seed v.toNat), h.next + 1⟩) := by
  simp only [newClu, newState, if_pos hv]

theorem newClu_none (rng : Rng G) (h : Heap G) (fresh : G) (c : Except E C) (sd : Option Int)
    (x : Obj C) (h' : Heap G) (hn : newClu rng h fresh c none sd = .ok (x, h')) :
    x.ref = h.next ∧ h'.next = h.next + 1 ∧ ∀ r < h.next, h'.gens r = h.gens r := by
  unfold newClu at hn
  cases c with
  | error e => simp at hn
  | ok c =>
    simp only at hn
    cases hm : newState (E := E) rng h fresh sd with
    | error e => rw [hm] at hn; simp at hn
    | ok q =>
      obtain ⟨r', h''⟩ := q
      rw [hm] at hn
      simp only [Except.ok.injEq, Prod.mk.injEq] at hn
      obtain ⟨rfl, rfl⟩ := hn
      obtain ⟨h1, h2, h3, -⟩ := newState_ok rng _ _ _ _ _ hm
      exact ⟨h1, h2, fun r hr => h3 r (by omega)⟩

theorem runMulti_cons (o : Ops C K E) (rng : Rng G) (li : Listing) (par : Params K) (c : Except E C)
    (kw : Option Int) (fresh : G) (s : Nat) (l : List Nat) (h : Heap G) (sd : Option Int)
    (hsd : sd = some (s : Int)) :
    runMulti o rng li par c kw fresh (s :: l) h =
      (match newClu rng h fresh c none sd with
      | .error e => (.error e, h)
      | .ok (x, h') =>
        match find o rng li par kw x h' with
        | (.error e, _, h'') => (.error e, h'')
        | (.ok n, x', h'') =>
          match runMulti o rng li par c kw fresh l h'' with
          | (.error e, h3) => (.error e, h3)
          | (.ok rs, h3) => (.ok ((n, (o.part x'.clu).clusters, s) :: rs), h3)) := by
  subst hsd
  rfl

theorem runMulti_frame (o : Ops C K E) (rng : Rng G) (li : Listing) (par : Params K) (c : Except E C)
    (kw : Option Int) (fresh : G) (seeds : List Nat) : ∀ h : Heap G,
    h.next ≤ (runMulti o rng li par c kw fresh seeds h).2.next ∧
      ∀ r < h.next, (runMulti o rng li par c kw fresh seeds h).2.gens r = h.gens r := by
  induction seeds with
  | nil => intro h; exact ⟨le_rfl, fun _ _ => rfl⟩
  | cons s l ih =>
    intro h
    obtain ⟨sd, hsd⟩ : ∃ sd : Option Int, sd = some (s : Int) := ⟨_, rfl⟩
    rw [runMulti_cons o rng li par c kw fresh s l h sd hsd]
    clear hsd
    cases hn : newClu rng h fresh c none sd with
    | error e => exact ⟨le_rfl, fun _ _ => rfl⟩
    | ok q =>
      obtain ⟨x, h'⟩ := q
      have hx := newClu_none rng h fresh c sd x h' hn
      obtain ⟨f1, f2, f3⟩ := find_frame o rng li par kw x h'
      simp only
      generalize find o rng li par kw x h' = q at f1 f2 f3
      obtain ⟨q, x', h''⟩ := q
      simp only at f1 f2 f3
      have hh : ∀ r < h.next, h''.gens r = h.gens r := fun r hr => by
        rw [f3 r (by omega)]; exact hx.2.2 r hr
      cases q with
      | error e => exact ⟨by simp only; omega, hh⟩
      | ok n =>
        simp only
        obtain ⟨i1, i2⟩ := ih h''
        generalize runMulti o rng li par c kw fresh l h'' = q at i1 i2
        obtain ⟨q, h3⟩ := q
        simp only at i1 i2
        have : h.next ≤ h3.next := by omega
        cases q with
        | error e => exact ⟨this, fun r hr => by rw [← hh r hr]; exact i2 r (by omega)⟩
        | ok rs => exact ⟨this, fun r hr => by rw [← hh r hr]; exact i2 r (by omega)⟩

/-- The repetitions of `run_multi_louvain`, each compared with one search. -/
theorem runMulti_each (o : Ops C K E) (rng : Rng G) (li : Listing) (par : Params K) (c : C)
    (kw : Option Int) (hkw : ∀ s, kw = some s → seedOk s) (fresh : G) (seeds : List Nat)
    (hseeds : ∀ s ∈ seeds, seedOk (s : Int)) :
    ∀ (h : Heap G) (rs : List (Nat × List (Finset Nat) × Nat)),
    (runMulti o rng li par (.ok c) kw fresh seeds h).1 = .ok rs →
      rs.map (fun r => r.2.2) = seeds ∧
      ∀ r ∈ rs, ∀ (x' : Obj C) (h' : Heap G), x'.clu = c →
        (Shown (find o rng li par (some (kw.getD (r.2.2 : Int))) x' h')).1 = .ok r.1 ∧
        (o.part (Shown (find o rng li par (some (kw.getD (r.2.2 : Int))) x' h')).2).clusters
          = r.2.1 := by
  induction seeds with
  | nil =>
    intro h rs hr
    simp only [runMulti, Except.ok.injEq] at hr
    subst hr
    exact ⟨rfl, by simp⟩
  | cons s l ih =>
    intro h rs hr
    have hs := hseeds s (by simp)
    obtain ⟨v, hv⟩ : ∃ v : Int, v = (s : Int) := ⟨_, rfl⟩
    have hvn : v.toNat = s := by rw [hv]; simp
    rw [runMulti_cons o rng li par (.ok c) kw fresh s l h (some v) (by rw [hv])] at hr
    have hn := newClu_seed (E := E) rng h fresh c v (by rw [hv]; exact hs)
    rw [hvn] at hn
    rw [hn] at hr
    simp only at hr
    have hsame : ∀ (x' : Obj C) (h' : Heap G), x'.clu = c →
        Shown (find o rng li par kw ⟨c, h.next⟩
          ⟨Function.update h.gens h.next (rng.seed s), h.next + 1⟩)
        = Shown (find o rng li par (some (kw.getD (s : Int))) x' h') := by
      intro x' h' hx
      cases kw with
      | none =>
        exact (find_shown o rng li par _ x' _ h' none (some (s : Int)) (rng.seed s)
          (.inr ⟨rfl, by simp⟩) (.inl ⟨(s : Int), hs, rfl, by simp⟩) hx.symm).1
      | some v =>
        exact (find_shown o rng li par _ x' _ h' (some v) (some v) (rng.seed v.toNat)
          (.inl ⟨v, hkw v rfl, rfl, rfl⟩) (.inl ⟨v, hkw v rfl, rfl, rfl⟩) hx.symm).1
    generalize find o rng li par kw ⟨c, h.next⟩
      ⟨Function.update h.gens h.next (rng.seed s), h.next + 1⟩ = q at hsame hr
    obtain ⟨q, x1, h''⟩ := q
    cases q with
    | error e => simp at hr
    | ok n =>
      simp only at hr
      have ih' := ih (fun t ht => hseeds t (by simp [ht])) h''
      generalize runMulti o rng li par (.ok c) kw fresh l h'' = q at ih' hr
      obtain ⟨q, h3⟩ := q
      cases q with
      | error e => simp at hr
      | ok rs' =>
        simp only [Except.ok.injEq] at hr
        subst hr
        obtain ⟨i1, i2⟩ := ih' rs' rfl
        refine ⟨by simp [i1], ?_⟩
        intro r hr x' h' hx
        rcases List.mem_cons.1 hr with rfl | hr
        · simp only
          rw [← hsame x' h' hx]
          exact ⟨rfl, rfl⟩
        · exact i2 r hr x' h' hx

/-- **C124.** `run_multi_louvain` without a seed among the keyword arguments: the seeds returned
are those drawn, one per repetition and in order; each repetition's number of loops and clusters
are those of a search with its seed on an object with the same arrays, in any program; the
generators that existed before the call are as before. -/
theorem C124_multi_partial (o : Ops C K E) (rng : Rng G) (li : Listing) (par : Params K) (c : C)
    (fresh : G) (ur : Nat → Fin 4 → Fin 256) (n : Nat) (h : Heap G)
    (rs : List (Nat × List (Finset Nat) × Nat))
    (hr : (runMulti o rng li par (.ok c) none fresh (nRandomSeeds ur n) h).1 = .ok rs) :
    rs.map (fun r => r.2.2) = nRandomSeeds ur n ∧
    (∀ r ∈ rs, ∀ (x' : Obj C) (h' : Heap G), x'.clu = c →
      (Shown (find o rng li par (some (r.2.2 : Int)) x' h')).1 = .ok r.1 ∧
      (o.part (Shown (find o rng li par (some (r.2.2 : Int)) x' h')).2).clusters = r.2.1) ∧
    (∀ r < h.next, (runMulti o rng li par (.ok c) none fresh (nRandomSeeds ur n) h).2.gens r
      = h.gens r) := by
  obtain ⟨h1, h2⟩ := runMulti_each o rng li par c none (by simp) fresh (nRandomSeeds ur n)
    (C124_seeds ur n).2.1 h rs hr
  exact ⟨h1, h2, (runMulti_frame o rng li par (.ok c) none fresh (nRandomSeeds ur n) h).2⟩

/-- **C124, where it fails.** With `rnd_seed` among the keyword arguments, which are handed to the
search, all repetitions are the same run, that of the seed in the keyword arguments, while the
seeds returned are others. -/
theorem C124_multi_violated (o : Ops C K E) (rng : Rng G) (li : Listing) (par : Params K) (c : C)
    (v : Int) (hv : seedOk v) (fresh : G) (ur : Nat → Fin 4 → Fin 256) (n : Nat) (h : Heap G)
    (rs : List (Nat × List (Finset Nat) × Nat))
    (hr : (runMulti o rng li par (.ok c) (some v) fresh (nRandomSeeds ur n) h).1 = .ok rs) :
    rs.map (fun r => r.2.2) = nRandomSeeds ur n ∧
    ∀ r ∈ rs, ∀ (x' : Obj C) (h' : Heap G), x'.clu = c →
      (Shown (find o rng li par (some v) x' h')).1 = .ok r.1 ∧
      (o.part (Shown (find o rng li par (some v) x' h')).2).clusters = r.2.1 :=
  runMulti_each o rng li par c (some v) (by rintro s ⟨rfl⟩; exact hv) fresh (nRandomSeeds ur n)
    (C124_seeds ur n).2.1 h rs hr

/-- The tasks of the pool, with the random numbers of their seeds. -/
theorem tasks (rng : Rng G) (li : Listing) (par : Params K) :
    (∃ sched : Nat → Verif.Louvain.Clu K → Sched, ∀ s d,
      Verif.Louvain.findLouvain (sched s d) par d = (search denseOps rng li par d (rng.seed s)).1) ∧
    (∃ sched : Nat → Verif.SparseLouvain.SClu K → Sched, ∀ s d,
      Verif.SparseLouvain.sFindLouvain (sched s d) par d
        = (search sparseOps rng li par d (rng.seed s)).1) := by
  refine ⟨⟨fun s d => (search_dense rng li par d (rng.seed s)).choose, fun s d => ?_⟩,
    ⟨fun s d => (search_sparse rng li par d (rng.seed s)).choose, fun s d => ?_⟩⟩
  · exact (search_dense rng li par d (rng.seed s)).choose_spec.symm
  · exact (search_sparse rng li par d (rng.seed s)).choose_spec.symm

/-- **C124.** The pool of processes: there are orders of the nodes, those the generator gives for
the seeds, with which the model of C78 answers as the processes do; for all acceptable seeds, each
result is returned beside a seed with which a search on an object with the same arrays, in any
program, finds the same clusters. -/
theorem C124_parallel (rng : Rng G) (li : Listing) (par : Params K) (c : Verif.Louvain.Clu K)
    (hn : 0 < c.n) (hrow : Verif.Louvain.rowsOk c.n c.T)
    (hT : ∀ i < c.n, 0 < Verif.Louvain.rowSum c.n c.T i) :
    ∃ sched : Nat → Sched,
      (∀ s d, Verif.Louvain.mkClu c.n c.T c.S .none = .ok d →
        Verif.Louvain.findLouvain (sched s) par d = (search denseOps rng li par d (rng.seed s)).1) ∧
      ∀ seeds order : List Nat, seeds ≠ [] → (∀ s ∈ seeds, seedOk (s : Int)) →
        order.Perm (List.range seeds.length) →
        ∃ rs, Verif.Parallel.parallel sched par (.dense c) seeds order = .results rs ∧
          rs.map (fun r => r.2.2) = seeds ∧
          ∀ r ∈ rs, ∀ (x : Obj (Verif.Louvain.Clu K)) (h : Heap G),
            Verif.Louvain.mkClu c.n c.T c.S .none = .ok x.clu →
            ∃ k, (find denseOps rng li par (some (r.2.2 : Int)) x h).1 = .ok k ∧
              (find denseOps rng li par (some (r.2.2 : Int)) x h).2.1.clu.part.clusters = r.1 := by
  obtain ⟨sched, hsched⟩ := (tasks (K := K) rng li par).1
  cases hm : Verif.Louvain.mkClu c.n c.T c.S .none with
  | error e =>
    refine ⟨fun _ => Verif.Louvain.exSched, by simp, ?_⟩
    intro seeds order hs _ ho
    obtain ⟨rs, h1, h2, h3⟩ := Verif.Parallel.C78_dense (fun _ => Verif.Louvain.exSched) par c hn
      hrow hT seeds order hs ho
    exact ⟨rs, h1, h2, fun r hr x h hx => by simp at hx⟩
  | ok d =>
    refine ⟨fun s => sched s d, ?_, ?_⟩
    · intro s d' hd
      simp only [Except.ok.injEq] at hd
      subst hd
      exact hsched s _
    · intro seeds order hs hok ho
      obtain ⟨rs, h1, h2, h3⟩ := Verif.Parallel.C78_dense (fun s => sched s d) par c hn hrow hT
        seeds order hs ho
      refine ⟨rs, h1, h2, fun r hr x h hx => ?_⟩
      simp only [Except.ok.injEq] at hx
      obtain ⟨⟨k, hk⟩, -⟩ := h3 r hr
      have hr2 : seedOk (r.2.2 : Int) := hok _ (by rw [← h2]; exact List.mem_map_of_mem hr)
      simp only [Verif.Static.runMulti, Verif.Static.oneRun, hm, hsched] at hk
      obtain ⟨v, hv⟩ : ∃ v : Int, v = (r.2.2 : Int) := ⟨_, rfl⟩
      rw [← hv] at hr2 ⊢
      have hvn : v.toNat = r.2.2 := by rw [hv]; simp
      rw [find_some denseOps rng li par v hr2 x h, ← hx, hvn]
      generalize search denseOps rng li par d (rng.seed r.2.2) = q at hk
      obtain ⟨q, g⟩ := q
      cases q with
      | error e => simp at hk
      | ok q =>
        obtain ⟨k', p⟩ := q
        simp only [Except.ok.injEq, List.cons.injEq, Prod.mk.injEq, and_true] at hk
        exact ⟨k', rfl, hk.2.1⟩

/-! ## Concrete cases -/

/-- A generator with two kinds of states, which start at different nodes. -/
def exRng : Rng Nat where
  seed s := s
  shuffle g n := ((List.range n).rotate (if g = 0 then 3 else 1), g)
  perm _ _ := List.rotate_perm _ _

/-- The listing of the earlier examples. -/
def exLi : Listing := ⟨Verif.Louvain.exSched.listing, Verif.Louvain.exSched.mem_listing⟩

/-- Four nodes in a row; the middle pair attracts most, nodes further apart repel each other. -/
def rowS (i j : Nat) : ℚ :=
  if i = j then 1 else if i + j = 3 ∧ (i = 1 ∨ i = 2) then 3
  else if i + 1 = j ∨ j + 1 = i then 2 else -10

/-- The clustering of the four nodes, each alone. -/
def rowClu : Verif.Louvain.Clu ℚ :=
  { n := 4, T := fun _ _ => 1 / 4, S := rowS,
    part := removeEmpty ⟨4, [{0}, {1}, {2}, {3}], dictOf [{0}, {1}, {2}, {3}]⟩ }

/-- The loops and the clusters shown by a call. -/
def look (r : Except (Exc Err) Nat × Obj (Verif.Louvain.Clu ℚ) × Heap Nat) :
    Option (Nat × List (List Nat)) :=
  match r.1 with
  | .ok n => some (n, r.2.1.clu.part.clusters.map Verif.Louvain.listSet)
  | .error _ => none

/-- Generators 0 and 1. -/
def exHeap : Heap Nat := ⟨fun r => r, 2⟩

example : look (find denseOps exRng exLi Verif.Louvain.exPar (some 0) ⟨rowClu, 0⟩ exHeap)
    = some (2, [[0, 1], [2, 3]]) := by decide +kernel

example : look (find denseOps exRng exLi Verif.Louvain.exPar (some 5) ⟨rowClu, 0⟩ exHeap)
    = some (2, [[0], [1, 2], [3]]) := by decide +kernel

/-- **C124, where it fails.** A case of the keyword argument: both repetitions find what the seed 5
finds, and the seeds returned, both 0, find something else. -/
theorem C124_reported_violated :
    ∃ rs, (runMulti denseOps exRng exLi Verif.Louvain.exPar (.ok rowClu) (some 5) 7
        (nRandomSeeds (fun _ _ => 0) 2) exHeap).1 = .ok rs ∧ rs.length = 2 ∧
      ∀ r ∈ rs, r.2.2 = 0 ∧ ((look (find denseOps exRng exLi Verif.Louvain.exPar (some (r.2.2 : Int))
        ⟨rowClu, 0⟩ exHeap)).map fun q => q.2) ≠ some (r.2.1.map Verif.Louvain.listSet) := by
  have h : ∃ rs, (runMulti denseOps exRng exLi Verif.Louvain.exPar (.ok rowClu) (some 5) 7
        (nRandomSeeds (fun _ _ => 0) 2) exHeap).1 = .ok rs ∧ rs.length = 2 := by
    cases hr : (runMulti denseOps exRng exLi Verif.Louvain.exPar (.ok rowClu) (some 5) 7
        (nRandomSeeds (fun _ _ => 0) 2) exHeap).1 with
    | ok rs =>
      refine ⟨rs, rfl, ?_⟩
      have := (C124_multi_violated denseOps exRng exLi Verif.Louvain.exPar rowClu 5 (by decide) 7
        (fun _ _ => 0) 2 exHeap rs hr).1
      have h2 := congrArg List.length this
      rw [List.length_map, (C124_seeds _ _).1] at h2
      exact h2
    | error e =>
      exfalso
      have : ((runMulti denseOps exRng exLi Verif.Louvain.exPar (.ok rowClu) (some 5) 7
        (nRandomSeeds (fun _ _ => 0) 2) exHeap).1.toOption).isSome = true := by decide +kernel
      rw [hr] at this
      simp [Except.toOption] at this
  obtain ⟨rs, h1, h2⟩ := h
  refine ⟨rs, h1, h2, fun r hr => ?_⟩
  obtain ⟨k1, k2⟩ := C124_multi_violated denseOps exRng exLi Verif.Louvain.exPar rowClu 5 (by decide) 7
    (fun _ _ => 0) 2 exHeap rs h1
  have hs : r.2.2 = 0 := by
    have : r.2.2 ∈ nRandomSeeds (fun _ _ => 0) 2 := by rw [← k1]; exact List.mem_map_of_mem hr
    have h0 : nRandomSeeds (fun _ _ => 0) 2 = [0, 0] := by decide
    rw [h0] at this
    simpa using this
  refine ⟨hs, ?_⟩
  have k3 := (k2 r hr ⟨rowClu, 0⟩ exHeap rfl).2
  rw [← k3, hs]
  decide +kernel

/-- **C124, where it fails.** The same call with the same seed twice on one object: the second
search starts from the partition found by the first and reports another number of loops. -/
theorem C124_again_violated :
    ∃ (x : Obj (Verif.Louvain.Clu ℚ)) (h : Heap Nat), ∃ n m,
      (find denseOps exRng exLi Verif.Louvain.exPar (some 0) x h).1 = .ok n ∧
      (find denseOps exRng exLi Verif.Louvain.exPar (some 0)
        (find denseOps exRng exLi Verif.Louvain.exPar (some 0) x h).2.1
        (find denseOps exRng exLi Verif.Louvain.exPar (some 0) x h).2.2).1 = .ok m ∧ n ≠ m := by
  refine ⟨⟨rowClu, 0⟩, exHeap, 2, 1, ?_, ?_, by decide⟩ <;> decide +kernel

/-- Hypotheses of `C124_history`: a program with one object, which then makes another object with
a seed, draws from the first generator, runs the first object and makes a third one. -/
example : Valid (⟨[⟨rowClu, 0⟩], exHeap⟩ : Session (Verif.Louvain.Clu ℚ) Nat) ∧ seedOk 5 ∧
    ∀ cmd ∈ ([.draw 0 (fun g => g + 1), .find 0 exLi Verif.Louvain.exPar (some 3),
        .make 9 (.ok rowClu) (some 1) none, .reseed 1 4, .state 8 none] :
        List (Cmd (Verif.Louvain.Clu ℚ) ℚ Err Nat)),
      Elsewhere 1 2 cmd := by
  refine ⟨?_, by decide, ?_⟩
  · intro x hx
    simp only [List.mem_singleton] at hx
    subst hx
    decide
  · intro cmd hc
    simp only [List.mem_cons, List.not_mem_nil, or_false] at hc
    rcases hc with rfl | rfl | rfl | rfl | rfl <;> simp [Elsewhere]

/-- Hypotheses of `C124_multi_partial`. -/
example : ∃ rs, (runMulti denseOps exRng exLi Verif.Louvain.exPar (.ok rowClu) none 7
    (nRandomSeeds (fun i _ => if i = 0 then 0 else 1) 2) exHeap).1 = .ok rs := by
  cases hr : (runMulti denseOps exRng exLi Verif.Louvain.exPar (.ok rowClu) none 7
    (nRandomSeeds (fun i _ => if i = 0 then 0 else 1) 2) exHeap).1 with
  | ok rs => exact ⟨rs, rfl⟩
  | error e =>
    exfalso
    have : ((runMulti denseOps exRng exLi Verif.Louvain.exPar (.ok rowClu) none 7
      (nRandomSeeds (fun i _ => if i = 0 then 0 else 1) 2) exHeap).1.toOption).isSome = true := by
      decide +kernel
    rw [hr] at this
    simp [Except.toOption] at this

/-- Hypotheses of `C124_parallel`. -/
example : 0 < rowClu.n ∧ Verif.Louvain.rowsOk rowClu.n rowClu.T ∧
    ∀ i < rowClu.n, 0 < Verif.Louvain.rowSum rowClu.n rowClu.T i := by decide +kernel

end Verif.Seeds
