import Verif.CommandLine.Spec
import Mathlib.Data.List.Nodup
import Mathlib.Algebra.Order.Field.Rat

/-!
# Command lines: property C158
-/

set_option linter.dupNamespace false

namespace Verif.CommandLine

variable {V : Type} {opts : List (Opt V)} {neg : Text → Bool} {conv : Ty → Text → Option V}

theorem find_name (h : Proper opts) {o : Opt V} (ho : o ∈ opts) : (opts.find? fun p => p.name = o.name) = some o := by
  have hd := h.different
  clear h
  induction opts with
  | nil => simp at ho
  | cons p l ih =>
    rw [List.map_cons, List.nodup_cons] at hd
    rcases List.mem_cons.1 ho with rfl | ho
    · simp
    · have hne : p.name ≠ o.name := fun e => hd.1 (e ▸ List.mem_map_of_mem ho)
      rw [List.find?_cons_of_neg (by simpa using hne)]
      exact ih ho hd.2

theorem classify_name (h : Proper opts) {o : Opt V} (ho : o ∈ opts) : classify opts neg o.name = .option o none := by
  obtain ⟨c, r, e⟩ := h.dashes o ho
  have hf := find_name h ho
  rw [e] at hf ⊢
  unfold classify
  simp only [hf]

theorem parse_cons (m : Mode V) (e : Env V) (t : Text) (ts : List Text) :
    parseFrom opts neg conv m e (t :: ts) =
      match classify opts neg t with
      | .bad => none
      | .value =>
        match m with
        | .idle => none
        | .one o ty =>
          match conv ty t with
          | none => none
          | some v => parseFrom opts neg conv .idle (e.set o (.one v)) ts
        | .many o ty l =>
          match conv ty t with
          | none => none
          | some v => parseFrom opts neg conv (.many o ty (l ++ [v])) e ts
      | .option o ex =>
        match close m e with
        | none => none
        | some e' =>
          match start conv o ex e' with
          | none => none
          | some (m', e'') => parseFrom opts neg conv m' e'' ts := by
  cases m <;> rfl

theorem find_none_of_single (h : Proper opts) {c : Char} {r : Text} (hc : c ≠ '-') :
    (opts.find? fun p => p.name = '-' :: c :: r) = none := by
  rw [List.find?_eq_none]
  intro p hp
  obtain ⟨c', r', e⟩ := h.dashes p hp
  simp only [decide_eq_true_eq]
  rw [e]
  intro he
  injection he with _ he
  injection he with he _
  exact hc he.symm

theorem classify_plain (h : Proper opts) {t : Text} (ht : Plain neg t) : classify opts neg t = .value := by
  rcases ht with ht | ⟨c, r, rfl, h1, h2, h3⟩
  · unfold classify
    match t, ht with
    | [], _ => rfl
    | [c], _ =>
      split
      · rename_i heq
        simp at heq
      · rfl
    | c :: d :: r, ht =>
      have hc : c ≠ '-' := by simpa using ht
      split
      · rename_i c' r' heq
        injection heq with h1 _
        exact absurd h1 hc
      · rfl
  · unfold classify
    simp only [find_none_of_single h h1]
    rw [if_pos h1, if_neg h2]
    unfold noOption
    rw [h3]
    rfl

/-- Where an option can follow: the end, or an option. -/
def Boundary (opts : List (Opt V)) (neg : Text → Bool) (ts : List Text) : Prop :=
  ∀ t r, ts = t :: r → ∃ o ex, classify opts neg t = .option o ex

theorem parse_closed {m : Mode V} {e e' : Env V} {ts : List Text} (hb : Boundary opts neg ts) (hc : close m e = some e') :
    parseFrom opts neg conv m e ts = parseFrom opts neg conv .idle e' ts := by
  cases ts with
  | nil =>
    unfold parseFrom
    exact hc
  | cons t r =>
    obtain ⟨o, ex, ho⟩ := hb t r rfl
    unfold parseFrom
    simp only [ho]
    rw [hc]
    rfl

theorem parse_values (h : Proper opts) {o : Opt V} {ty : Ty} {e : Env V} {rest : List Text} (hb : Boundary opts neg rest) :
    ∀ (ts : List Text) (sofar vs : List V), (∀ t ∈ ts, Plain neg t) → ts.mapM (conv ty) = some vs → sofar ++ vs ≠ [] →
      parseFrom opts neg conv (.many o ty sofar) e (ts ++ rest) = parseFrom opts neg conv .idle (e.set o (.many (sofar ++ vs))) rest
  | [], sofar, vs, _, hv, hne => by
    have hv : vs = [] := by simpa using hv.symm
    subst hv
    rw [List.append_nil] at hne ⊢
    exact parse_closed hb (by unfold close; cases sofar <;> simp_all)
  | t :: ts, sofar, vs, hp, hv, hne => by
    rw [List.mapM_cons] at hv
    cases hx : conv ty t with
    | none => simp [hx] at hv
    | some v =>
      cases hy : ts.mapM (conv ty) with
      | none => simp [hx, hy] at hv
      | some ws =>
        have hv : vs = v :: ws := by simpa [hx, hy] using hv.symm
        subst hv
        rw [List.cons_append, parse_cons, classify_plain h (hp t (by simp))]
        simp only [hx]
        rw [parse_values h hb ts (sofar ++ [v]) ws (fun t ht => hp t (by simp [ht])) hy (by simp)]
        simp

theorem words_boundary (h : Proper opts) {given : List (Opt V × Given)} (ha : ∀ g ∈ given, g.1 ∈ opts) {rest : List Text}
    (hb : Boundary opts neg rest) : Boundary opts neg (given.flatMap words ++ rest) := by
  cases given with
  | nil => exact hb
  | cons g l =>
    intro t r ht
    have : t = g.1.name := by
      rw [List.flatMap_cons] at ht
      unfold words at ht
      cases hg : g.2 <;> rw [hg] at ht <;> injection ht with ht _ <;> exact ht.symm
    exact ⟨g.1, none, by rw [this]; exact classify_name h (ha g (by simp))⟩

/-- The settings after some options. -/
def after (conv : Ty → Text → Option V) (e : Env V) (given : List (Opt V × Given)) : Env V :=
  given.foldl (fun e g => e.set g.1 ((meant conv g).getD .missing)) e

theorem parse_words (h : Proper opts) {rest : List Text} (hb : Boundary opts neg rest) :
    ∀ (given : List (Opt V × Given)) (e : Env V), Allowed opts neg conv given →
      parseFrom opts neg conv .idle e (given.flatMap words ++ rest) = parseFrom opts neg conv .idle (after conv e given) rest
  | [], e, _ => rfl
  | g :: l, e, ha => by
    obtain ⟨hm, hs, hp⟩ := ha g (by simp)
    have hl : Allowed opts neg conv l := fun g' hg' => ha g' (by simp [hg'])
    have hb' := words_boundary h (fun g' hg' => (hl g' hg').1) hb (given := l)
    have ih := parse_words h hb l (e.set g.1 ((meant conv g).getD .missing)) hl
    obtain ⟨o, giv⟩ := g
    dsimp only at hm hp
    show _ = parseFrom opts neg conv .idle (after conv (e.set o ((meant conv (o, giv)).getD .missing)) l) rest
    rw [← ih]
    obtain ⟨s, hs'⟩ := Option.isSome_iff_exists.1 hs
    rw [hs', Option.getD_some, List.flatMap_cons]
    unfold meant at hs'
    dsimp only at hs'
    cases hk : o.kind with
    | help => rw [hk] at hs'; simp at hs'
    | on =>
      rw [hk] at hs'
      cases giv with
      | name =>
        injection hs' with hs'
        subst hs'
        show parseFrom opts neg conv .idle e (o.name :: (l.flatMap words ++ rest)) = _
        rw [parse_cons, classify_name h hm]
        simp [close, start, hk]
      | value t => simp at hs'
      | values t ts => simp at hs'
    | off =>
      rw [hk] at hs'
      cases giv with
      | name =>
        injection hs' with hs'
        subst hs'
        show parseFrom opts neg conv .idle e (o.name :: (l.flatMap words ++ rest)) = _
        rw [parse_cons, classify_name h hm]
        simp [close, start, hk]
      | value t => simp at hs'
      | values t ts => simp at hs'
    | one ty =>
      rw [hk] at hs'
      cases giv with
      | name => simp at hs'
      | value t =>
        obtain ⟨v, hv, rfl⟩ := Option.map_eq_some_iff.1 hs'
        show parseFrom opts neg conv .idle e (o.name :: t :: (l.flatMap words ++ rest)) = _
        rw [parse_cons, classify_name h hm]
        simp only [close, start, hk]
        rw [parse_cons, classify_plain h (hp t (by simp [Given.texts]))]
        simp only [hv]
      | values t ts => simp at hs'
    | many ty =>
      rw [hk] at hs'
      cases giv with
      | name => simp at hs'
      | value t => simp at hs'
      | values t ts =>
        obtain ⟨vs, hvs, rfl⟩ := Option.map_eq_some_iff.1 hs'
        show parseFrom opts neg conv .idle e (o.name :: ((t :: ts) ++ l.flatMap words) ++ rest) = _
        rw [List.cons_append, parse_cons, classify_name h hm]
        simp only [close, start, hk]
        rw [List.append_assoc, parse_values h hb' (t :: ts) [] vs (fun t' ht' => hp t' ht') hvs ?_, List.nil_append]
        rw [List.nil_append]
        rintro rfl
        rw [List.mapM_cons] at hvs
        cases hx : conv ty t with
        | none => simp [hx] at hvs
        | some v => cases hy : ts.mapM (conv ty) <;> simp [hx, hy] at hvs

theorem after_get (e : Env V) (given : List (Opt V × Given)) (n : Text) :
    after conv e given n = match given.reverse.find? fun g => g.1.name = n with
      | some g => (meant conv g).getD .missing
      | none => e n := by
  unfold after
  rw [List.foldl_eq_foldr_reverse]
  induction given.reverse with
  | nil => rfl
  | cons g l ih =>
    rw [List.foldr_cons]
    unfold Env.set
    by_cases hn : n = g.1.name
    · rw [if_pos hn, List.find?_cons_of_pos (by simp [hn])]
    · rw [if_neg hn, List.find?_cons_of_neg (by simpa using fun e => hn e.symm)]
      exact ih

theorem after_wanted (h : Proper opts) {given : List (Opt V × Given)} (ha : Allowed opts neg conv given) {o : Opt V} (ho : o ∈ opts) :
    after conv (defaults opts) given o.name = wanted conv given o := by
  rw [after_get]
  unfold wanted
  cases hf : given.reverse.find? fun g => g.1.name = o.name with
  | none =>
    show defaults opts o.name = _
    unfold defaults
    rw [find_name h ho]
    rfl
  | some g =>
    have hg := List.mem_reverse.1 (List.mem_of_find?_eq_some hf)
    obtain ⟨s, hs⟩ := Option.isSome_iff_exists.1 (ha g hg).2.1
    simp [hs]

/-- **C158**.  If the user gives options that exist, each with what it takes, in any order and number, the program starts with the
settings that were given, for each option the last one, and with the defaults of all options that were not given. -/
theorem C158_given (h : Proper opts) (given : List (Opt V × Given)) (ha : Allowed opts neg conv given) :
    ∃ e, parse opts neg conv (given.flatMap words) = some e ∧ ∀ o ∈ opts, e o.name = wanted conv given o := by
  refine ⟨after conv (defaults opts) given, ?_, fun o ho => after_wanted h ha ho⟩
  have := parse_words (conv := conv) h (rest := []) (fun t r ht => by simp at ht) given (defaults opts) ha
  rw [List.append_nil] at this
  exact this

/-- **C158**, order.  Options for different things can be given in any order. -/
theorem C158_order (h : Proper opts) (given given' : List (Opt V × Given)) (ha : Allowed opts neg conv given) (hperm : given.Perm given')
    (hd : (given.map fun g => g.1.name).Nodup) :
    ∃ e e', parse opts neg conv (given.flatMap words) = some e ∧ parse opts neg conv (given'.flatMap words) = some e' ∧
      ∀ o ∈ opts, e o.name = e' o.name := by
  obtain ⟨e, h1, h2⟩ := C158_given h given ha
  obtain ⟨e', h1', h2'⟩ := C158_given h given' fun g hg => ha g (hperm.mem_iff.2 hg)
  refine ⟨e, e', h1, h1', fun o ho => ?_⟩
  rw [h2 o ho, h2' o ho]
  unfold wanted
  have key : ∀ l : List (Opt V × Given), (l.map fun g => g.1.name).Nodup → ∀ g,
      ((l.reverse.find? fun g => g.1.name = o.name) = some g ↔ g ∈ l ∧ g.1.name = o.name) := by
    intro l hl g
    constructor
    · intro hf
      exact ⟨List.mem_reverse.1 (List.mem_of_find?_eq_some hf), by simpa using List.find?_some hf⟩
    · rintro ⟨hg, hn⟩
      cases hf : l.reverse.find? fun g => g.1.name = o.name with
      | none => exact absurd hn (by simpa using List.find?_eq_none.1 hf g (List.mem_reverse.2 hg))
      | some g' =>
        have hg' := List.mem_reverse.1 (List.mem_of_find?_eq_some hf)
        have hn' : g'.1.name = o.name := by simpa using List.find?_some hf
        rw [List.inj_on_of_nodup_map hl hg' hg (hn'.trans hn.symm)]
  have : (given.reverse.find? fun g => g.1.name = o.name) = given'.reverse.find? fun g => g.1.name = o.name := by
    apply Option.ext
    intro g
    rw [key given hd, key given' ((hperm.map _).nodup_iff.1 hd), hperm.mem_iff]
  rw [this]

theorem split_equals {n v : Text} (hn : '=' ∉ n) :
    (n ++ '=' :: v).takeWhile (· ≠ '=') = n ∧ ((n ++ '=' :: v).dropWhile (· ≠ '=')).drop 1 = v := by
  induction n with
  | nil => simp
  | cons c n ih =>
    rw [List.mem_cons, not_or] at hn
    have hc : c ≠ '=' := fun e => hn.1 e.symm
    obtain ⟨h1, h2⟩ := ih hn.2
    rw [List.cons_append, List.takeWhile_cons, List.dropWhile_cons]
    simp only [ne_eq, hc, not_false_eq_true, decide_true, if_true]
    exact ⟨by rw [← h1] ; simp_all, h2⟩

theorem classify_equals (h : Proper opts) {o : Opt V} (ho : o ∈ opts) (v : Text) :
    classify opts neg (o.name ++ '=' :: v) = .option o (some v) := by
  obtain ⟨c, r, e⟩ := h.dashes o ho
  have hf := find_name h ho
  obtain ⟨h1, h2⟩ := split_equals (v := v) (h.equals o ho)
  have hnone : (opts.find? fun p => p.name = o.name ++ '=' :: v) = none := by
    rw [List.find?_eq_none]
    intro p hp
    simp only [decide_eq_true_eq]
    intro he
    exact h.equals p hp (by rw [he]; simp)
  have hcon : (o.name ++ '=' :: v).contains '=' = true := by simp
  rw [e] at hf h1 h2 hnone hcon ⊢
  simp only [List.cons_append] at h1 h2 hnone hcon ⊢
  unfold classify
  simp only [hnone]
  rw [if_neg (by simp), if_neg (by simp)]
  simp only [h1, h2, hf, hcon, if_true]

/-- **C158**, values after `=`.  Every value that the option takes can be given as `--name=value`, also if it begins with a dash. -/
theorem C158_equals (h : Proper opts) (given : List (Opt V × Given)) (ha : Allowed opts neg conv given) {o : Opt V} (ho : o ∈ opts) {ty : Ty}
    (hk : o.kind = .one ty) {v : Text} {x : V} (hx : conv ty v = some x) :
    ∃ e, parse opts neg conv (given.flatMap words ++ [o.name ++ '=' :: v]) = some e ∧ e o.name = .one x ∧
      ∀ o' ∈ opts, o'.name ≠ o.name → e o'.name = wanted conv given o' := by
  have hc := classify_equals (neg := neg) h ho v
  refine ⟨(after conv (defaults opts) given).set o (.one x), ?_, ?_, ?_⟩
  · unfold parse
    rw [parse_words h _ given (defaults opts) ha, parse_cons, hc]
    · simp only [close, start, hk, hx]
      rfl
    · intro t r ht
      injection ht with ht _
      exact ⟨o, some v, by rw [← ht]; exact hc⟩
  · unfold Env.set
    rw [if_pos rfl]
  · intro o' ho' hne
    unfold Env.set
    rw [if_neg hne]
    exact after_wanted h ha ho'

/-- **C158**, values that begin with a dash.  As a separate word, a value that begins with a dash and is neither a negative number nor has a
space stops the program before it starts. -/
theorem C158_dash (h : Proper opts) (given : List (Opt V × Given)) (ha : Allowed opts neg conv given) {o : Opt V} (ho : o ∈ opts) {ty : Ty}
    (hk : o.kind = .one ty) {c : Char} {r : Text} (hneg : neg ('-' :: c :: r) = false) (hsp : ' ' ∉ '-' :: c :: r) (rest : List Text) :
    parse opts neg conv (given.flatMap words ++ o.name :: ('-' :: c :: r) :: rest) = none := by
  unfold parse
  rw [parse_words h _ given (defaults opts) ha, parse_cons, classify_name h ho]
  · simp only [close, start, hk]
    have hno : ∀ t : Text, t = '-' :: c :: r → (noOption neg t : Word V) = .bad := by
      rintro t rfl
      unfold noOption
      rw [hneg]
      simp only [Bool.false_or]
      rw [if_neg (by simpa using hsp)]
    have hcl : classify opts neg ('-' :: c :: r) ≠ .value := by
      cases hfd : opts.find? fun p => p.name = '-' :: c :: r with
      | some o' =>
        simp only [classify, hfd]
        simp
      | none =>
        simp only [classify, hfd, hno _ rfl]
        split_ifs
        all_goals first
          | (simp; done)
          | (split
             · simp
             · split <;> simp)
    rw [parse_cons]
    cases hw : classify opts neg ('-' :: c :: r) with
    | value => exact absurd hw hcl
    | bad => rfl
    | option o' ex => rfl
  · intro t r' ht
    injection ht with ht _
    exact ⟨o, none, by rw [← ht]; exact classify_name h ho⟩

theorem takeWhile_all {n : Text} (hn : '=' ∉ n) : n.takeWhile (· ≠ '=') = n := by
  induction n with
  | nil => rfl
  | cons c n ih =>
    rw [List.mem_cons, not_or] at hn
    have hc : c ≠ '=' := fun e => hn.1 e.symm
    rw [List.takeWhile_cons, if_pos (by simpa using hc), ih hn.2]

/-- **C158**, abbreviations.  A beginning of a name with at least one letter after the dashes, which is not the name of an option itself, stands for
the option if it is the only one whose name begins like this, and stops the program if there are others. -/
theorem C158_abbreviations (h : Proper opts) {o : Opt V} (ho : o ∈ opts) {c : Char} {t : Text} (hpre : '-' :: '-' :: c :: t <+: o.name)
    (hno : ∀ p ∈ opts, p.name ≠ '-' :: '-' :: c :: t) (rest : List Text) :
    ((∀ p ∈ opts, '-' :: '-' :: c :: t <+: p.name → p = o) →
      parse opts neg conv (('-' :: '-' :: c :: t) :: rest) = parse opts neg conv (o.name :: rest)) ∧
    ((∃ p ∈ opts, p.name ≠ o.name ∧ '-' :: '-' :: c :: t <+: p.name) → parse opts neg conv (('-' :: '-' :: c :: t) :: rest) = none) := by
  have heq : '=' ∉ '-' :: '-' :: c :: t := fun hm => h.equals o ho (hpre.subset hm)
  have hfind : (opts.find? fun p => p.name = '-' :: '-' :: c :: t) = none := by
    rw [List.find?_eq_none]
    intro p hp
    simpa using hno p hp
  have hcls : classify opts neg ('-' :: '-' :: c :: t) = match fitting opts ('-' :: '-' :: c :: t) with
      | [] => noOption neg ('-' :: '-' :: c :: t)
      | [o] => .option o none
      | _ => .bad := by
    unfold classify
    simp only [hfind]
    rw [if_neg (by simp), if_neg (by simp)]
    have hcon : ('-' :: '-' :: c :: t : Text).contains '=' = false := by simpa using heq
    simp only [takeWhile_all heq, hfind, hcon]
    rfl
  have hmem : ∀ p, p ∈ fitting opts ('-' :: '-' :: c :: t) ↔ p ∈ opts ∧ '-' :: '-' :: c :: t <+: p.name := by
    intro p
    unfold fitting
    rw [List.mem_filter, List.isPrefixOf_iff_prefix]
  have hnd : (fitting opts ('-' :: '-' :: c :: t)).Nodup := (List.Nodup.of_map _ h.different).filter _
  constructor
  · intro huniq
    have hone : fitting opts ('-' :: '-' :: c :: t) = [o] := by
      cases hl : fitting opts ('-' :: '-' :: c :: t) with
      | nil =>
        have := (hmem o).2 ⟨ho, hpre⟩
        rw [hl] at this
        simp at this
      | cons p l =>
        rw [hl] at hnd hmem
        have hp := (hmem p).1 (by simp)
        have e1 := huniq p hp.1 hp.2
        subst e1
        cases l with
        | nil => rfl
        | cons q l =>
          have hq := (hmem q).1 (by simp)
          have e2 := huniq q hq.1 hq.2
          subst e2
          simp at hnd
    unfold parse
    rw [parse_cons, parse_cons, hcls, hone, classify_name h ho]
  · rintro ⟨p, hp, hpn, hpp⟩
    have h1 := (hmem o).2 ⟨ho, hpre⟩
    have h2 := (hmem p).2 ⟨hp, hpp⟩
    unfold parse
    rw [parse_cons, hcls]
    match hl : fitting opts ('-' :: '-' :: c :: t) with
    | [] => rw [hl] at h1; simp at h1
    | [q] =>
      rw [hl, List.mem_singleton] at h1 h2
      exact absurd (by rw [h1, h2]) hpn
    | _ :: _ :: _ => rfl

theorem parse_bad {t : Text} (ht : classify opts neg t = .bad) :
    ∀ (ws : List Text) (m : Mode V) (e : Env V), t ∈ ws → parseFrom opts neg conv m e ws = none
  | [], _, _, hm => by simp at hm
  | w :: ws, m, e, hm => by
    rw [parse_cons]
    rcases List.mem_cons.1 hm with rfl | hm
    · rw [ht]
    · have ih := fun m e => parse_bad ht ws m e hm
      cases classify opts neg w with
      | bad => rfl
      | value =>
        cases m with
        | idle => rfl
        | one o ty =>
          dsimp only
          cases conv ty w with
          | none => rfl
          | some v => exact ih _ _
        | many o ty l =>
          dsimp only
          cases conv ty w with
          | none => rfl
          | some v => exact ih _ _
      | option o ex =>
        dsimp only
        cases close m e with
        | none => rfl
        | some e' =>
          dsimp only
          cases start conv o ex e' with
          | none => rfl
          | some x => exact ih _ _

/-- **C158**, unknown options.  A word that begins with two dashes and fits no option, and has no space, stops the program, wherever it
is. -/
theorem C158_unknown {c : Char} {t : Text}
    (hno : ∀ p ∈ opts, ¬ ('-' :: '-' :: c :: t).takeWhile (· ≠ '=') <+: p.name) (hneg : neg ('-' :: '-' :: c :: t) = false)
    (hsp : ' ' ∉ '-' :: '-' :: c :: t) (ws : List Text) (hws : '-' :: '-' :: c :: t ∈ ws) : parse opts neg conv ws = none := by
  have hfind : (opts.find? fun p => p.name = '-' :: '-' :: c :: t) = none := by
    rw [List.find?_eq_none]
    intro p hp
    simp only [decide_eq_true_eq]
    intro he
    exact hno p hp (by rw [he]; exact List.takeWhile_prefix _)
  have hfind' : (opts.find? fun p => p.name = ('-' :: '-' :: c :: t).takeWhile (· ≠ '=')) = none := by
    rw [List.find?_eq_none]
    intro p hp
    simp only [decide_eq_true_eq]
    intro he
    exact hno p hp (by rw [he]; all_goals exact List.prefix_rfl)
  have hfit : fitting opts (('-' :: '-' :: c :: t).takeWhile (· ≠ '=')) = [] := by
    unfold fitting
    rw [List.filter_eq_nil_iff]
    intro p hp
    rw [List.isPrefixOf_iff_prefix]
    exact hno p hp
  have hcls : classify opts neg ('-' :: '-' :: c :: t) = .bad := by
    unfold classify
    simp only [hfind]
    rw [if_neg (by simp), if_neg (by simp)]
    simp only [hfind', hfit]
    unfold noOption
    rw [hneg]
    simp only [Bool.false_or]
    rw [if_neg (by simpa using hsp)]
  exact parse_bad hcls ws _ _ hws

/-- **C158**, the scripts.  The options of the three scripts are proper. -/
theorem C158_scripts : Proper clusteringsOpts ∧ Proper covOpts ∧ Proper lapOpts := by
  have key : ∀ l : List (Opt Val), (l.map Opt.name).Nodup →
      (∀ o ∈ l, o.name.take 2 = ['-', '-'] ∧ 2 < o.name.length ∧ '=' ∉ o.name) → Proper l := by
    intro l h1 h2
    refine ⟨h1, fun o ho => ?_, fun o ho => (h2 o ho).2.2⟩
    obtain ⟨ha, hb, -⟩ := h2 o ho
    match hn : o.name, ha, hb with
    | a :: b :: c :: r, ha, _ =>
      simp at ha
      rw [ha.1, ha.2]
      exact ⟨c, r, rfl⟩
  exact ⟨key _ (by decide +kernel) (by decide +kernel), key _ (by decide +kernel) (by decide +kernel),
    key _ (by decide +kernel) (by decide +kernel)⟩

/-! ## Examples -/

/-- Conversions for the examples: texts, and the number 3. -/
def exConv : Ty → Text → Option Val
  | .str, t => some (.text t)
  | .int, t => if t = "3".toList then some (.int 3) else none
  | .float, _ => none

def exGiven : List (Opt Val × Given) :=
  [(opt1 "--datadir" .str (text ""), .value "in".toList), (optOn "--only_from_start", .name),
    (⟨"--int_list".toList, .many .int, .many []⟩, .values "3".toList ["3".toList]), (opt1 "--datadir" .str (text ""), .value "data".toList)]

example : Allowed covOpts (fun _ => false) exConv exGiven := by
  intro g hg
  simp only [exGiven, List.mem_cons, List.not_mem_nil, or_false] at hg
  rcases hg with rfl | rfl | rfl | rfl
  · exact ⟨by decide +kernel, by decide +kernel, fun t ht => .inl (by simp only [Given.texts, List.mem_singleton] at ht; subst ht; decide)⟩
  · exact ⟨by decide +kernel, by decide +kernel, fun t ht => by simp [Given.texts] at ht⟩
  · refine ⟨by decide +kernel, by decide +kernel, fun t ht => .inl ?_⟩
    simp only [Given.texts, List.mem_cons, List.not_mem_nil, or_false, or_self] at ht
    subst ht
    decide
  · exact ⟨by decide +kernel, by decide +kernel, fun t ht => .inl (by simp only [Given.texts, List.mem_singleton] at ht; subst ht; decide)⟩

example : ((parse covOpts (fun _ => false) exConv (exGiven.flatMap words)).map fun e =>
    (e "--datadir".toList, e "--only_from_start".toList, e "--only_from_start_and_finish".toList, e "--int_list".toList, e "--ncpu".toList)) =
    some (text "data", .flag true, .flag false, .many [.int 3, .int 3], int 4) := by decide +kernel

/-- `--only_f` fits several options, `--time` only one. -/
example : parse covOpts (fun _ => false) exConv ["--only_f".toList] = none ∧
    ((parse covOpts (fun _ => false) exConv ["--time".toList, "forward".toList]).map fun e => e "--time_direction".toList) =
      some (text "forward") := by
  constructor
  · have : (parse covOpts (fun _ => false) exConv ["--only_f".toList]).isNone = true := by decide +kernel
    simpa using this
  · decide +kernel

end Verif.CommandLine
