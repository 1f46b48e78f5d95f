import Verif.Model.Build

/-!
# C107: what prep.sh builds
-/

namespace NiiC
namespace Build

/-- The names defined at the top of the repository. -/
def topNames : List String := topUnits.flatMap fun p => p.2.defs.map (·.1)

/-- The definitions at the top of the repository. -/
def topDefs : List (String × Sym) := topUnits.flatMap fun p => p.2.defs

/-- What the program asks of the user's two files, with the types with which it is used. -/
def required : List (String × Sym) :=
  [("logll_beta", .fn .dbl [.ptr .dbl, .int, .ptr .dbl, .dbl]), ("log_prior", .fn .dbl [.ptr .dbl]), ("para_boundary", .fn .int [.ptr .dbl]),
    ("init_parm_set", .fn .void [.int, .ptr .dbl]), ("init_gaussian_proposal", .fn .int [.ptr .dbl, .dbl]), ("sigma_parm_min", .var (.ptr .dbl)),
    ("sigma_parm_max", .var (.ptr .dbl))]

/-- Everything is used with the type with which it is defined. Otherwise the behaviour of the program is undefined. -/
def Typed (us : List Unit) : Prop := ∀ u ∈ us, ∀ s ∈ u.uses, ∀ v ∈ us, ∀ t ∈ v.defs, t.1 = s.1 → t.2 = s.2

/-- The program made of the sources at the top and the user's two files. -/
def whole (a b : Unit) : List Unit := topUnits.map (·.2) ++ [a, b]

theorem topNames_nodup : topNames.Nodup := by decide +kernel

theorem top_uses : ∀ p ∈ topUnits, ∀ s ∈ p.2.uses, s.1 ∈ topNames ∨ s ∈ required := by decide +kernel

theorem top_types : ∀ p ∈ topUnits, ∀ s ∈ p.2.uses, ∀ t ∈ topDefs, t.1 = s.1 → t.2 = s.2 := by decide +kernel

theorem required_used : ∀ r ∈ required, ∃ p ∈ topUnits, r ∈ p.2.uses := by decide +kernel

theorem required_new : ∀ r ∈ required, r.1 ∉ topNames := by decide +kernel

theorem topNames_defs : topNames = topDefs.map (·.1) := by
  simp [topNames, topDefs, List.map_flatMap]

theorem links_def (us : List Unit) : links us = true ↔ (us.flatMap fun u => u.defs.map (·.1)).Nodup ∧
    (∀ u ∈ us, ∀ s ∈ u.uses, s.1 ∈ us.flatMap fun u => u.defs.map (·.1)) ∧ "main" ∈ us.flatMap fun u => u.defs.map (·.1) := by
  simp only [links, Bool.and_eq_true, decide_eq_true_eq, List.all_eq_true, List.contains_iff_mem, and_assoc]

theorem whole_names (a b : Unit) : ((whole a b).flatMap fun u => u.defs.map (·.1)) = topNames ++ (a.defs ++ b.defs).map (·.1) := by
  simp [whole, topNames, List.flatMap_append, List.flatMap_map]

/-- **C107.** For every pair of files of a user: the program links exactly if the two files define the seven names asked for, nothing twice and nothing that the program defines itself, and
use nothing else but what the program or they define. -/
theorem links_iff (a b : Unit) : links (whole a b) = true ↔
    ((a.defs ++ b.defs).map (·.1)).Nodup ∧ (∀ s ∈ a.defs ++ b.defs, s.1 ∉ topNames) ∧ (∀ r ∈ required, r.1 ∈ (a.defs ++ b.defs).map (·.1)) ∧
    ∀ s ∈ a.uses ++ b.uses, s.1 ∈ topNames ∨ s.1 ∈ (a.defs ++ b.defs).map (·.1) := by
  rw [links_def, whole_names]
  constructor
  · rintro ⟨hn, hu, -⟩
    have hd := (List.nodup_append.1 hn).2.2
    refine ⟨(List.nodup_append.1 hn).2.1, fun s hs ht => hd _ ht _ (List.mem_map_of_mem hs) rfl, fun r hr => ?_, fun s hs => ?_⟩
    · obtain ⟨p, hp, hrp⟩ := required_used r hr
      have h := hu p.2 (by rw [whole]; exact List.mem_append_left _ (List.mem_map_of_mem hp)) r hrp
      rcases List.mem_append.1 h with h | h
      · exact absurd h (required_new r hr)
      · exact h
    · rcases List.mem_append.1 hs with h | h
      · exact List.mem_append.1 (hu a (by simp [whole]) s h)
      · exact List.mem_append.1 (hu b (by simp [whole]) s h)
  · rintro ⟨hn, hd, hr, hu⟩
    refine ⟨List.nodup_append.2 ⟨topNames_nodup, hn, fun x hx y hy e => ?_⟩, fun u hu' s hs => ?_, List.mem_append_left _ (by decide +kernel)⟩
    · obtain ⟨s, hs, rfl⟩ := List.mem_map.1 hy
      exact hd s hs (e ▸ hx)
    · rw [whole, List.mem_append] at hu'
      rcases hu' with h | h
      · obtain ⟨p, hp, rfl⟩ := List.mem_map.1 h
        rcases top_uses p hp s hs with h | h
        · exact List.mem_append_left _ h
        · exact List.mem_append_right _ (hr s h)
      · refine List.mem_append.2 (hu s (List.mem_append.2 ?_))
        rcases List.mem_cons.1 h with rfl | h
        · exact .inl hs
        · rw [List.mem_singleton] at h
          subst h
          exact .inr hs

example : links (whole regressionLogll regressionPrior) = true := by
  rw [links_iff]
  exact ⟨by decide +kernel, by decide +kernel, by decide +kernel, by decide +kernel⟩

/-- **C107.** A program that links is free of calls with wrong types exactly if the user's files define the seven names with the types asked for and use everything with the type of its
definition. -/
theorem typed_iff (a b : Unit) (h : links (whole a b) = true) : Typed (whole a b) ↔
    (∀ r ∈ required, ∀ t ∈ a.defs ++ b.defs, t.1 = r.1 → t.2 = r.2) ∧
    ∀ s ∈ a.uses ++ b.uses, ∀ t ∈ topDefs ++ (a.defs ++ b.defs), t.1 = s.1 → t.2 = s.2 := by
  have hab : ∀ {s : String × Sym}, s ∈ a.defs ++ b.defs ↔ ∃ v ∈ [a, b], s ∈ v.defs := by simp
  have hab' : ∀ {s : String × Sym}, s ∈ a.uses ++ b.uses ↔ ∃ v ∈ [a, b], s ∈ v.uses := by simp
  have hold := ((links_iff a b).1 h).2.1
  constructor
  · intro ht
    refine ⟨fun r hr t htt e => ?_, fun s hs t htt e => ?_⟩
    · obtain ⟨p, hp, hrp⟩ := required_used r hr
      obtain ⟨v, hv, hvt⟩ := hab.1 htt
      exact ht p.2 (List.mem_append_left _ (List.mem_map_of_mem hp)) r hrp v (List.mem_append_right _ hv) t hvt e
    · obtain ⟨u, hu, hus⟩ := hab'.1 hs
      rcases List.mem_append.1 htt with h | h
      · obtain ⟨p, hp, hpt⟩ := List.mem_flatMap.1 h
        exact ht u (List.mem_append_right _ hu) s hus p.2 (List.mem_append_left _ (List.mem_map_of_mem hp)) t hpt e
      · obtain ⟨v, hv, hvt⟩ := hab.1 h
        exact ht u (List.mem_append_right _ hu) s hus v (List.mem_append_right _ hv) t hvt e
  · rintro ⟨h1, h2⟩ u hu s hs v hv t ht e
    have ht' : t ∈ topDefs ++ (a.defs ++ b.defs) := by
      rcases List.mem_append.1 hv with h | h
      · obtain ⟨p, hp, rfl⟩ := List.mem_map.1 h
        exact List.mem_append_left _ (List.mem_flatMap.2 ⟨p, hp, ht⟩)
      · exact List.mem_append_right _ (hab.2 ⟨v, h, ht⟩)
    rcases List.mem_append.1 hu with h | h
    · obtain ⟨p, hp, rfl⟩ := List.mem_map.1 h
      rcases List.mem_append.1 ht' with h' | h'
      · exact top_types p hp s hs t h' e
      · rcases top_uses p hp s hs with h3 | h3
        · exact absurd (e ▸ h3) (hold t h')
        · exact h1 s h3 t h' e
    · exact h2 s (hab'.2 ⟨u, h, hs⟩) t ht' e

/-- **C107.** The models written for this version link and call everything with the right types. -/
theorem current_models_fit : ∀ m ∈ currentModels, links (whole m.1 m.2) = true ∧ Typed (whole m.1 m.2) := by
  have hl : ∀ m ∈ currentModels, links (whole m.1 m.2) = true := by decide +kernel
  intro m hm
  refine ⟨hl m hm, (typed_iff _ _ (hl m hm)).2 ⟨?_, ?_⟩⟩
  · revert m
    decide +kernel
  · revert m
    decide +kernel

example : (twoLogll, twoPrior) ∈ currentModels := by simp [currentModels]

/-- **C107 fails for the models written for version 1.0.0.** They link as well, so that neither the compiler nor the linker says anything, but their `logll_beta` takes the data as a
table of pointers and the rank in place of the inverse temperature: every call of it is undefined. -/
theorem older_models_differ : ∀ m ∈ olderModels, links (whole m.1 m.2) = true ∧ ¬ Typed (whole m.1 m.2) := by
  have hl : ∀ m ∈ olderModels, links (whole m.1 m.2) = true := by decide +kernel
  have hd : ∀ m ∈ olderModels, ("logll_beta", .fn .dbl [.ptr .dbl, .int, .ptr (.ptr .dbl), .int]) ∈ m.1.defs ++ m.2.defs := by decide +kernel
  intro m hm
  refine ⟨hl m hm, fun ht => ?_⟩
  have h := ((typed_iff _ _ (hl m hm)).1 ht).1 _ (List.mem_cons_self ..) _ (hd m hm) rfl
  exact absurd h (by decide)

example : (orbitLogll, orbitPrior) ∈ olderModels := by simp [olderModels]

/-! ## Directories -/

theorem cp_other (p : Str → Bool) (s d : Dir) (n : Str) (h : p n = false) : cp p s d n = d n := by simp [cp, h]

theorem cp_none (p : Str → Bool) (s d : Dir) (n : Str) (h : s n = none) : cp p s d n = d n := by
  simp only [cp, h]
  split <;> rfl

theorem cp_some (p : Str → Bool) (s d : Dir) (n : Str) (f : File) (hp : p n = true) (h : s n = some f) : cp p s d n = some f := by simp [cp, h, hp]

theorem cp_cp (p q : Str → Bool) (s d : Dir) : cp q s (cp p s d) = cp (fun n => p n || q n) s d := by
  funext n
  simp only [cp]
  by_cases hp : p n = true <;> by_cases hq : q n = true <;> cases hs : s n <;> simp [hp, hq]

/-- Everything that `prep.sh` does before `make`. -/
def copied (top d : Dir) : Dir := cp (fun n => glob (c!".c") n || glob (c!".h") n || decide (n = c!"mjob.sh") || decide (n = c!"Makefile")) top d

theorem prep_eq (top d : Dir) : prep top d = make (copied top d) := by
  simp only [prep, cp_cp, copied]

theorem make_spec (d : Dir) : make d = d ∨ ∃ ss us, d (c!"Makefile") = some (.makefile ss) ∧ compileAll d ss = some us ∧ links us = true ∧
    make d = fun n => if n = c!"a.out" then some (.program us) else d n := by
  rw [make]
  split
  · rename_i ss hm
    split
    · rename_i us hc
      split
      · rename_i hl
        exact .inr ⟨ss, us, hm, hc, hl, rfl⟩
      · exact .inl rfl
    · exact .inl rfl
  · exact .inl rfl

theorem make_other (d : Dir) (n : Str) (h : n ≠ c!"a.out") : make d n = d n := by
  rcases make_spec d with e | ⟨ss, us, -, -, -, e⟩
  · rw [e]
  · rw [e]
    exact if_neg h

/-- **C107.** `prep.sh` changes nothing in the directory of a model but `Makefile`, `mjob.sh`, `a.out` and the files that have the name of a source or header at the top: neither `input.ini`,
nor data, nor the user's two files. -/
theorem prep_keeps (top d : Dir) (n : Str) (h : n ≠ c!"Makefile" ∧ n ≠ c!"mjob.sh" ∧ n ≠ c!"a.out")
    (ht : top n = none ∨ ¬ ((n.head? ≠ some '.') ∧ (c!".c" <:+ n ∨ c!".h" <:+ n))) : prep top d n = d n := by
  rw [prep_eq, make_other _ _ h.2.2, copied]
  rcases ht with ht | ht
  · exact cp_none _ _ _ _ ht
  · refine cp_other _ _ _ _ (Bool.not_eq_true _ ▸ ?_)
    simp only [glob, Bool.or_eq_true, Bool.and_eq_true, decide_eq_true_eq, List.isSuffixOf_iff_suffix, bne_iff_ne, not_or]
    refine ⟨⟨⟨fun h' => ht ⟨h'.1, .inl h'.2⟩, fun h' => ht ⟨h'.1, .inr h'.2⟩⟩, h.2.1⟩, h.1⟩

example (d : Dir) : prep (fun _ => some .header) d (c!"input.ini") = d (c!"input.ini") :=
  prep_keeps _ _ _ (by decide) (.inr (by decide))

/-- The top of the repository: the files there as far as `prep.sh` needs them; there may be others. -/
structure Top (top : Dir) : Prop where
  sources : ∀ p ∈ topUnits, top p.1 = some (.source p.2)
  header : top (c!"alloc.h") = some .header
  makefile : top (c!"Makefile") = some (.makefile topMakefile)

theorem copied_source {top d : Dir} (h : Top top) : ∀ p ∈ topUnits, copied top d p.1 = some (.source p.2) := fun p hp =>
  cp_some _ _ _ _ _ (by revert p; decide +kernel) (h.sources p hp)

theorem copied_header {top d : Dir} (h : Top top) : copied top d (c!"alloc.h") = some .header := cp_some _ _ _ _ _ (by decide) h.header

theorem top_includes : ∀ p ∈ topUnits, ∀ x ∈ p.2.includes, x = c!"alloc.h" := by decide +kernel

theorem compile_some {d : Dir} {n : Str} {u : Unit} (h : d n = some (.source u)) (hi : ∀ x ∈ u.includes, d x = some .header) : compile d n = some u := by
  rw [compile, h]
  refine if_pos (List.all_eq_true.2 fun x hx => ?_)
  rw [hi x hx]

theorem compileAll_map {d : Dir} {ps : List (Str × Unit)} (h : ∀ p ∈ ps, compile d p.1 = some p.2) (qs : List Str) (us : List Unit) (hq : compileAll d qs = some us) :
    compileAll d (ps.map (·.1) ++ qs) = some (ps.map (·.2) ++ us) := by
  induction ps with
  | nil => exact hq
  | cons p ps ih =>
    rw [List.map_cons, List.cons_append, compileAll, h p (List.mem_cons_self ..), ih fun q hq => h q (List.mem_cons_of_mem _ hq)]
    rfl

/-- The program made when the user's files in the copied directory are `a` and `b`. -/
theorem prep_general {top d : Dir} (h : Top top) {a b : Unit} (ha : copied top d (c!"user_logll.c") = some (.source a))
    (hb : copied top d (c!"user_prior.c") = some (.source b)) (hi : ∀ x ∈ a.includes ++ b.includes, copied top d x = some .header) :
    prep top d (c!"a.out") = if links (whole a b) then some (.program (whole a b)) else d (c!"a.out") := by
  have hm : copied top d (c!"Makefile") = some (.makefile topMakefile) := cp_some _ _ _ _ _ (by decide) h.makefile
  have hc : compileAll (copied top d) topMakefile = some (whole a b) := by
    refine compileAll_map (ps := topUnits) (fun p hp => compile_some (copied_source h p hp) fun x hx => ?_) [c!"user_logll.c", c!"user_prior.c"] [a, b] ?_
    · rw [top_includes p hp x hx]
      exact copied_header h
    · simp only [compileAll, compile_some ha fun x hx => hi x (List.mem_append_left _ hx), compile_some hb fun x hx => hi x (List.mem_append_right _ hx)]
  have ho : copied top d (c!"a.out") = d (c!"a.out") := cp_other _ _ _ _ (by decide)
  rw [prep_eq, make, hm]
  simp only [hc]
  split
  · simp
  · exact ho

/-- **C107.** Run in any directory with the files of a user in it, whatever else it holds - older copies of the program, an older Makefile as in models/curved_likelihood, an older
program - `prep.sh` makes `a.out` of the sources at the top and the user's two files if these link, and leaves an older `a.out` as it is if not. -/
theorem prep_program {top d : Dir} (h : Top top) (hn : top (c!"user_logll.c") = none ∧ top (c!"user_prior.c") = none) {a b : Unit}
    (ha : d (c!"user_logll.c") = some (.source a)) (hb : d (c!"user_prior.c") = some (.source b))
    (hi : ∀ x ∈ a.includes ++ b.includes, x = c!"alloc.h" ∨ top x = none ∧ d x = some .header) :
    prep top d (c!"a.out") = if links (whole a b) then some (.program (whole a b)) else d (c!"a.out") := by
  refine prep_general h ((cp_none _ _ _ _ hn.1).trans ha) ((cp_none _ _ _ _ hn.2).trans hb) fun x hx => ?_
  rcases hi x hx with rfl | ⟨h1, h2⟩
  · exact copied_header h
  · exact (cp_none _ _ _ _ h1).trans h2

/-- A repository. -/
def demoTop : Dir := fun n =>
  if n = c!"alloc.h" then some .header else if n = c!"Makefile" then some (.makefile topMakefile) else (topUnits.lookup n).map .source

theorem demoTop_top : Top demoTop where
  sources := by
    intro p hp
    have h : ∀ p ∈ topUnits, p.1 ≠ c!"alloc.h" ∧ p.1 ≠ c!"Makefile" ∧ topUnits.lookup p.1 = some p.2 := by decide +kernel
    rw [demoTop, if_neg (h p hp).1, if_neg (h p hp).2.1, (h p hp).2.2]
    rfl
  header := rfl
  makefile := rfl

/-- The directory of models/curved_likelihood with an older program in it. -/
def demoDir : Dir := fun n =>
  if n = c!"user_logll.c" then some (.source twoLogll) else if n = c!"user_prior.c" then some (.source twoPrior)
  else if n = c!"Makefile" then some (.makefile curvedMakefile) else if n = c!"a.out" then some (.program []) else none

example : prep demoTop demoDir (c!"a.out") = some (.program (whole twoLogll twoPrior)) := by
  rw [prep_program demoTop_top ⟨by decide, by decide⟩ (a := twoLogll) (b := twoPrior) rfl rfl (fun x hx => by simp [twoLogll, twoPrior] at hx), if_pos]
  exact (current_models_fit _ (List.mem_cons_self ..)).1

/-- **C107 fails with a model at the top.** If there are files of a user at the top of the repository as well, `prep.sh` puts them in place of those of the model: the model's own code is
lost, and the program is made of the other one. -/
theorem prep_overwrites {top d : Dir} (h : Top top) {a b : Unit} (ha : top (c!"user_logll.c") = some (.source a)) (hb : top (c!"user_prior.c") = some (.source b))
    (hi : ∀ x ∈ a.includes ++ b.includes, x = c!"alloc.h") (hl : links (whole a b) = true) :
    prep top d (c!"user_logll.c") = some (.source a) ∧ prep top d (c!"user_prior.c") = some (.source b) ∧ prep top d (c!"a.out") = some (.program (whole a b)) := by
  have h1 : copied top d (c!"user_logll.c") = some (.source a) := cp_some _ _ _ _ _ (by decide) ha
  have h2 : copied top d (c!"user_prior.c") = some (.source b) := cp_some _ _ _ _ _ (by decide) hb
  refine ⟨?_, ?_, ?_⟩
  · rw [prep_eq, make_other _ _ (by decide), h1]
  · rw [prep_eq, make_other _ _ (by decide), h2]
  · rw [prep_general h h1 h2, if_pos hl]
    intro x hx
    rw [hi x hx]
    exact copied_header h

/-- The repository with the regression copied to its top. -/
def usedTop : Dir := fun n =>
  if n = c!"user_logll.c" then some (.source regressionLogll) else if n = c!"user_prior.c" then some (.source regressionPrior) else demoTop n

example : prep usedTop demoDir (c!"user_logll.c") = some (.source regressionLogll) := by
  refine (prep_overwrites ⟨fun p hp => ?_, rfl, rfl⟩ rfl rfl (by decide) (b := regressionPrior) ?_).1
  · have h : ∀ p ∈ topUnits, p.1 ≠ c!"user_logll.c" ∧ p.1 ≠ c!"user_prior.c" := by decide +kernel
    rw [usedTop, if_neg (h p hp).1, if_neg (h p hp).2]
    exact demoTop_top.sources p hp
  · exact (current_models_fit (regressionLogll, regressionPrior) (by simp [currentModels])).1

theorem compile_iff {d : Dir} {n : Str} {u : Unit} : compile d n = some u ↔ d n = some (.source u) ∧ ∀ x ∈ u.includes, d x = some .header := by
  constructor
  · intro h
    rw [compile] at h
    split at h
    · rename_i v hv
      split at h
      · rename_i hi
        cases h
        refine ⟨hv, fun x hx => ?_⟩
        have := List.all_eq_true.1 hi x hx
        split at this
        · assumption
        · cases this
      · cases h
    · cases h
  · exact fun h => compile_some h.1 h.2

theorem compile_congr {d e : Dir} (h : ∀ n, n ≠ c!"a.out" → e n = d n) (hp : ∃ us, e (c!"a.out") = some (.program us)) {n : Str} {u : Unit} (hc : compile e n = some u) :
    compile d n = some u := by
  obtain ⟨us, hp⟩ := hp
  have key : ∀ m f, e m = some f → (∀ us, f ≠ .program us) → d m = some f := by
    intro m f hm hf
    by_cases ha : m = c!"a.out"
    · rw [ha, hp] at hm
      cases hm
      exact absurd rfl (hf us)
    · rw [← h m ha, hm]
  rw [compile_iff] at hc ⊢
  exact ⟨key _ _ hc.1 (by simp), fun x hx => key _ _ (hc.2 x hx) (by simp)⟩

theorem compileAll_congr {d e : Dir} (h : ∀ n, n ≠ c!"a.out" → e n = d n) (hp : ∃ us, e (c!"a.out") = some (.program us)) :
    ∀ {ns : List Str} {us : List Unit}, compileAll e ns = some us → compileAll d ns = some us := by
  intro ns
  induction ns with
  | nil => exact fun h => h
  | cons n ns ih =>
    intro us hc
    rw [compileAll] at hc ⊢
    split at hc
    · rename_i u vs hu hv
      rw [compile_congr h hp hu, ih hv]
      exact hc
    · cases hc

theorem make_make (d : Dir) : make (make d) = make d := by
  rcases make_spec d with e | ⟨ss, us, hm, hc, hl, e⟩
  · rw [e, e]
  · rcases make_spec (make d) with e' | ⟨ss', us', hm', hc', hl', e'⟩
    · exact e'
    · have h1 : ss' = ss := by
        rw [make_other _ _ (by decide), hm] at hm'
        cases hm'
        rfl
      subst h1
      have h2 := compileAll_congr (d := d) (fun n hn => make_other d n hn) ⟨us, by rw [e]; rfl⟩ hc'
      rw [hc] at h2
      cases h2
      rw [e', e]
      funext n
      dsimp only
      split <;> rfl

/-- **C107.** Running `prep.sh` again changes nothing. -/
theorem prep_twice (top d : Dir) : prep top (prep top d) = prep top d := by
  rw [prep_eq top d, prep_eq]
  have h : copied top (make (copied top d)) = make (copied top d) := by
    funext n
    by_cases hn : n = c!"a.out"
    · exact cp_other _ _ _ _ (by rw [hn]; decide)
    · have h2 : copied top (copied top d) = copied top d := by
        simp only [copied, cp_cp, Bool.or_self]
      have h3 : copied top (make (copied top d)) n = copied top (copied top d) n := by
        simp only [copied, cp, make_other _ _ hn]
      rw [h3, h2, make_other _ _ hn]
  rw [h, make_make]

theorem compileAll_sources {d : Dir} : ∀ {ns : List Str} {us : List Unit}, compileAll d ns = some us → ns.map d = us.map fun u => some (.source u) := by
  intro ns
  induction ns with
  | nil =>
    intro us h
    cases h
    rfl
  | cons n ns ih =>
    intro us h
    rw [compileAll] at h
    split at h
    · rename_i u vs hu hv
      cases h
      rw [List.map_cons, List.map_cons, ih hv, (compile_iff.1 hu).1]
    · cases h

example (top d : Dir) : prep top (prep top (prep top d)) = prep top d := by rw [prep_twice, prep_twice]

/-- **C107.** The Makefile in models/curved_likelihood, used without `prep.sh`, makes no program, whatever the user's files are, unless they define the tuning of the ladder themselves: it
lacks mpi_ladder.c. -/
theorem old_makefile {d : Dir} (hm : d (c!"Makefile") = some (.makefile curvedMakefile)) (hs : ∀ p ∈ topUnits, d p.1 = some (.source p.2)) {a b : Unit}
    (ha : d (c!"user_logll.c") = some (.source a)) (hb : d (c!"user_prior.c") = some (.source b)) (hn : ∀ s ∈ a.defs ++ b.defs, s.1 ≠ "mpi_adjust_ladder") : make d = d := by
  rcases make_spec d with e | ⟨ss, us, hm', hc, hl, -⟩
  · exact e
  exfalso
  rw [hm] at hm'
  cases hm'
  have h1 := compileAll_sources hc
  have h2 : curvedMakefile.map d = ([uMain, uInit, uBatch, uStack, uFlow, uTune, uData, uAlloc, uRand, uReadin] ++ [a, b]).map fun u => some (.source u) := by
    have hs' := fun p hp => hs p hp
    simp only [topUnits, List.forall_mem_cons] at hs'
    obtain ⟨s1, s2, s3, s4, s5, s6, -, s8, s9, s10, s11, -⟩ := hs'
    simp only [curvedMakefile, List.map_cons, List.map_nil, List.cons_append, List.nil_append, s1, s2, s3, s4, s5, s6, s8, s9, s10, s11, ha, hb]
  have h3 : us = [uMain, uInit, uBatch, uStack, uFlow, uTune, uData, uAlloc, uRand, uReadin] ++ [a, b] := by
    refine (List.map_inj_right (f := fun u => some (File.source u)) ?_).1 (h1.symm.trans h2)
    intro x y e
    cases e
    rfl
  rw [h3] at hl
  have h4 := ((links_def _).1 hl).2.1 uStack (by simp) ("mpi_adjust_ladder", .fn .int [.status, .int, .int, .int, .int, .ptr .dbl, .ptr .dbl, .ptr .dbl]) (by decide +kernel)
  rw [List.flatMap_append, List.mem_append] at h4
  rcases h4 with h4 | h4
  · revert h4
    decide +kernel
  · obtain ⟨u, hu, h5⟩ := List.mem_flatMap.1 h4
    obtain ⟨t, ht, e⟩ := List.mem_map.1 h5
    refine hn t ?_ e
    simp only [List.mem_cons, List.not_mem_nil, or_false] at hu
    rcases hu with rfl | rfl
    · exact List.mem_append_left _ ht
    · exact List.mem_append_right _ ht

/-- The directory of models/curved_likelihood with the sources of the program and no call of `prep.sh`. -/
def oldDir : Dir := fun n =>
  if n = c!"user_logll.c" then some (.source twoLogll) else if n = c!"user_prior.c" then some (.source twoPrior)
  else if n = c!"Makefile" then some (.makefile curvedMakefile) else demoTop n

example : make oldDir = oldDir := by
  refine old_makefile rfl (fun p hp => ?_) (a := twoLogll) (b := twoPrior) rfl rfl (by decide +kernel)
  have h : ∀ p ∈ topUnits, p.1 ≠ c!"user_logll.c" ∧ p.1 ≠ c!"user_prior.c" ∧ p.1 ≠ c!"Makefile" := by decide +kernel
  rw [oldDir, if_neg (h p hp).1, if_neg (h p hp).2.1, if_neg (h p hp).2.2]
  exact demoTop_top.sources p hp

end Build
end NiiC
