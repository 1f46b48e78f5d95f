import Verif.Mpi.Confluence

/-!
# How many messages can be in flight

A criterion on rank programs, checked by walking through each program on its own: between two moments at which a rank is
known to be caught up with by another rank (a barrier, or a message received from that other rank) it sends that rank at most
`K t` messages with tag `t`. If such programs have one complete execution that never relies on buffering, then in every
execution the queue of tag `t` between any two ranks has at most `K t` messages (`in_flight`).
-/

namespace NiiC

variable {n : Nat} {V L α γ : Type}

/-- What a rank may still send to each other rank under each tag. -/
abbrev Budget (n : Nat) := Fin n → Tag → Nat

/-- One message less to `d` under `t`. -/
def Budget.spend (β : Budget n) (d : Fin n) (t : Tag) : Budget n :=
  Function.update β d (Function.update (β d) t (β d t - 1))

/-- A message from `s` has come. -/
def Budget.heard (β : Budget n) (K : Tag → Nat) (s : Fin n) : Budget n := Function.update β s K

/-- The program never sends more than its budget, which is `K` again after a barrier, and `K` again for the rank from which it
has received a message. At the end `Q` holds for the result and for what is left. -/
def Proc.Paced (K : Tag → Nat) : Budget n → Proc n V L α → (α → Budget n → Prop) → Prop
  | β, .ret a, Q => Q a β
  | β, .send d t _ k, Q => 0 < β d t ∧ Paced K (β.spend d t) k Q
  | β, .recv s _ k, Q => ∀ v, Paced K (β.heard K s) (k v) Q
  | _, .barrier k, Q => Paced K (fun _ => K) k Q
  | β, .out _ k, Q => Paced K β k Q
  | _, .fault _, _ => True

namespace Proc

theorem Paced.mono {K : Tag → Nat} {Q Q' : α → Budget n → Prop} (hQ : ∀ a β, Q a β → Q' a β) {p : Proc n V L α} {β : Budget n}
    (h : p.Paced K β Q) : p.Paced K β Q' := by
  induction p generalizing β with
  | ret a => exact hQ _ _ h
  | send d t v k ih => exact ⟨h.1, ih h.2⟩
  | recv s t k ih => exact fun v => ih v (h v)
  | barrier k ih => exact ih (β := fun _ => K) h
  | out l k ih => exact ih (β := β) h
  | fault e => trivial

theorem Paced.bind {K : Tag → Nat} {Q : γ → Budget n → Prop} {p : Proc n V L α} {f : α → Proc n V L γ} {β : Budget n}
    (h : p.Paced K β (fun a β' => (f a).Paced K β' Q)) : (p.bind f).Paced K β Q := by
  induction p generalizing β with
  | ret a => exact h
  | send d t v k ih => exact ⟨h.1, ih h.2⟩
  | recv s t k ih => exact fun v => ih v (h v)
  | barrier k ih => exact ih (β := fun _ => K) h
  | out l k ih => exact ih (β := β) h
  | fault e => trivial

/-- The rule of sequencing: `R` between the two parts. -/
theorem Paced.seq {K : Tag → Nat} {R : α → Budget n → Prop} {Q : γ → Budget n → Prop} {p : Proc n V L α} {f : α → Proc n V L γ}
    {β : Budget n} (h : p.Paced K β R) (h' : ∀ a β', R a β' → (f a).Paced K β' Q) : (p.bind f).Paced K β Q :=
  .bind (h.mono h')

end Proc

namespace Sys

/-- The rank `r` has some budget with which it keeps. -/
def Keeps (K : Tag → Nat) (p : Proc n V L α) : Prop :=
  ∃ β : Budget n, (∀ d t, β d t ≤ K t) ∧ p.Paced K β (fun _ _ => True)

theorem spend_le {K : Tag → Nat} {β : Budget n} (h : ∀ d t, β d t ≤ K t) (d : Fin n) (t : Tag) (d' : Fin n) (t' : Tag) :
    β.spend d t d' t' ≤ K t' := by
  unfold Budget.spend
  by_cases hd : d' = d
  · subst hd
    by_cases ht : t' = t
    · subst ht
      have := h d' t'
      simp only [Function.update_self]
      omega
    · simp [Function.update_of_ne ht, h]
  · simp [Function.update_of_ne hd, h]

theorem heard_le {K : Tag → Nat} {β : Budget n} (h : ∀ d t, β d t ≤ K t) (s d' : Fin n) (t' : Tag) :
    β.heard K s d' t' ≤ K t' := by
  unfold Budget.heard
  by_cases hd : d' = s
  · subst hd
    simp
  · simp [Function.update_of_ne hd, h]

theorem spend_other {β : Budget n} {d d' : Fin n} {t t' : Tag} (h : (d', t') ≠ (d, t)) : β.spend d t d' t' = β d' t' := by
  unfold Budget.spend
  by_cases hd : d' = d
  · subst hd
    by_cases ht : t' = t
    · subst ht; exact absurd rfl h
    · simp [Function.update_of_ne ht]
  · simp [Function.update_of_ne hd]

theorem spend_self {β : Budget n} (d : Fin n) (t : Tag) : β.spend d t d t = β d t - 1 := by simp [Budget.spend]

/-- What a step of one rank does, as four facts about the cases. -/
theorem stepRank_cases {s s' : Sys n V L α} {r : Fin n} (h : s.stepRank r = some s') :
    (∃ d t v k, s.procs r = .send d t v k ∧ s'.procs = Function.update s.procs r k ∧
      s'.chan = Function.update s.chan (r, d, t) (s.chan (r, d, t) ++ [v])) ∨
    (∃ src t v q k, s.procs r = .recv src t k ∧ s.chan (src, r, t) = v :: q ∧ s'.procs = Function.update s.procs r (k v) ∧
      s'.chan = Function.update s.chan (src, r, t) q) ∨
    (∃ l k, s.procs r = .out l k ∧ s'.procs = Function.update s.procs r k ∧ s'.chan = s.chan) := by
  unfold stepRank at h
  split at h
  · rename_i d t v k hk
    cases h
    exact .inl ⟨d, t, v, k, hk, rfl, rfl⟩
  · rename_i src t k hk
    split at h
    · cases h
    · rename_i v q hq
      cases h
      exact .inr (.inl ⟨src, t, v, q, k, hk, hq, rfl, rfl⟩)
  · rename_i l k hk
    cases h
    exact .inr (.inr ⟨l, k, hk, rfl, rfl⟩)
  · cases h

theorem Keeps.stepRank {K : Tag → Nat} {s s' : Sys n V L α} {r : Fin n} (h : s.stepRank r = some s')
    (hs : ∀ r, Keeps K (s.procs r)) (r' : Fin n) : Keeps K (s'.procs r') := by
  by_cases hr : r' = r
  · subst hr
    obtain ⟨β, hβ, hp⟩ := hs r'
    rcases stepRank_cases h with ⟨d, t, v, k, e, e1, _⟩ | ⟨src, t, v, q, k, e, _, e1, _⟩ | ⟨l, k, e, e1, _⟩
    · rw [e] at hp
      rw [e1, Function.update_self]
      exact ⟨β.spend d t, spend_le hβ d t, hp.2⟩
    · rw [e] at hp
      rw [e1, Function.update_self]
      exact ⟨β.heard K src, heard_le hβ src, hp v⟩
    · rw [e] at hp
      rw [e1, Function.update_self]
      exact ⟨β, hβ, hp⟩
  · have : s'.procs r' = s.procs r' := by
      rcases stepRank_cases h with ⟨d, t, v, k, e, e1, _⟩ | ⟨src, t, v, q, k, e, _, e1, _⟩ | ⟨l, k, e, e1, _⟩ <;>
        rw [e1, Function.update_of_ne hr]
    rw [this]
    exact hs r'

theorem Keeps.stepBarrier {K : Tag → Nat} {s s' : Sys n V L α} (h : s.stepBarrier = some s')
    (hs : ∀ r, Keeps K (s.procs r)) (r : Fin n) : Keeps K (s'.procs r) := by
  unfold Sys.stepBarrier at h
  split at h
  · rename_i hall
    cases h
    have hb := hall.2 r
    obtain ⟨β, hβ, hp⟩ := hs r
    show Keeps K ((s.procs r).barrier?.getD (s.procs r))
    revert hb
    revert hp
    cases s.procs r with
    | barrier k => exact fun hp _ => ⟨fun _ => K, fun _ _ => Nat.le_refl _, hp⟩
    | ret a => intro _ hb; cases hb
    | send d t v k => intro _ hb; cases hb
    | recv s t k => intro _ hb; cases hb
    | out l k => intro _ hb; cases hb
    | fault e => intro _ hb; cases hb
  · cases h

/-- While `b` waits for a message and does not move, `a` keeps with its budget. -/
theorem frozen {K : Tag → Nat} {s t : Sys n V L α} {w : List (Label n)} {a b : Fin n} {tg : Tag} {β : Budget n}
    (hw : s.exec w = some t) (hb : Label.rank b ∉ w) (hrecv : (s.procs b).barrier? = none) (hab : a ≠ b)
    (hq : ∀ u, s.chan (b, a, u) = []) (hp : (s.procs a).Paced K β (fun _ _ => True))
    (hl : (s.chan (a, b, tg)).length + β b tg ≤ K tg) : (t.chan (a, b, tg)).length ≤ K tg := by
  induction w generalizing s β with
  | nil =>
    simp only [exec_nil, Option.some.injEq] at hw
    subst hw
    omega
  | cons l w ih =>
    simp only [exec_cons, Option.bind_eq_some_iff] at hw
    obtain ⟨s', hs, hw⟩ := hw
    have hb' : Label.rank b ∉ w := fun h => hb (List.mem_cons_of_mem _ h)
    cases l with
    | barrier =>
      exfalso
      simp only [step, stepBarrier] at hs
      split at hs
      · rename_i hall
        have := hall.2 b
        rw [hrecv] at this
        cases this
      · cases hs
    | rank r =>
      have hrb : r ≠ b := fun h => hb (by rw [h]; exact List.mem_cons_self)
      have hs : s.stepRank r = some s' := hs
      by_cases hra : r = a
      · subst hra
        rcases stepRank_cases hs with ⟨d, u, v, k, e, e1, e2⟩ | ⟨src, u, v, q, k, e, e0, e1, e2⟩ | ⟨l, k, e, e1, e2⟩
        · rw [e] at hp
          have hpb : s'.procs b = s.procs b := by rw [e1, Function.update_of_ne (Ne.symm hrb)]
          refine ih hw hb' (by rw [hpb]; exact hrecv) (β := β.spend d u) ?_ ?_ ?_
          · intro u'
            rw [e2, Function.update_of_ne (fun h => hrb (congrArg Prod.fst h).symm)]
            exact hq u'
          · rw [e1, Function.update_self]
            exact hp.2
          · by_cases hc : (b, tg) = (d, u)
            · cases hc
              have := hp.1
              rw [e2, Function.update_self, spend_self, List.length_append, List.length_singleton]
              omega
            · rw [e2, Function.update_of_ne (fun h => hc (congrArg Prod.snd h)), spend_other hc]
              exact hl
        · rw [e] at hp
          have hsrc : src ≠ b := by
            rintro rfl
            rw [hq u] at e0
            cases e0
          have hpb : s'.procs b = s.procs b := by rw [e1, Function.update_of_ne (Ne.symm hrb)]
          refine ih hw hb' (by rw [hpb]; exact hrecv) (β := β.heard K src) ?_ ?_ ?_
          · intro u'
            rw [e2, Function.update_of_ne (fun h => hsrc (congrArg Prod.fst h).symm)]
            exact hq u'
          · rw [e1, Function.update_self]
            exact hp v
          · rw [e2, Function.update_of_ne (fun h => hrb (congrArg (fun x => x.2.1) h).symm)]
            simpa [Budget.heard, Function.update_of_ne (Ne.symm hsrc)] using hl
        · rw [e] at hp
          have hpb : s'.procs b = s.procs b := by rw [e1, Function.update_of_ne (Ne.symm hrb)]
          refine ih hw hb' (by rw [hpb]; exact hrecv) (β := β) ?_ ?_ ?_
          · rw [e2]; exact hq
          · rw [e1, Function.update_self]
            exact hp
          · rw [e2]; exact hl
      · have hpb : s'.procs b = s.procs b := by
          rcases stepRank_cases hs with ⟨d, u, v, k, e, e1, _⟩ | ⟨src, u, v, q, k, e, _, e1, _⟩ | ⟨l, k, e, e1, _⟩ <;>
            rw [e1, Function.update_of_ne (Ne.symm hrb)]
        have hpa : s'.procs a = s.procs a := by
          rcases stepRank_cases hs with ⟨d, u, v, k, e, e1, _⟩ | ⟨src, u, v, q, k, e, _, e1, _⟩ | ⟨l, k, e, e1, _⟩ <;>
            rw [e1, Function.update_of_ne (Ne.symm hra)]
        have hch : ∀ x y u', (x = a ∧ y = b ∨ x = b ∧ y = a) → s'.chan (x, y, u') = s.chan (x, y, u') := by
          intro x y u' hxy
          have hx : x ≠ r := by rcases hxy with ⟨rfl, rfl⟩ | ⟨rfl, rfl⟩ <;> first | exact Ne.symm hra | exact Ne.symm hrb
          have hy : y ≠ r := by rcases hxy with ⟨rfl, rfl⟩ | ⟨rfl, rfl⟩ <;> first | exact Ne.symm hra | exact Ne.symm hrb
          rcases stepRank_cases hs with ⟨d, u, v, k, e, _, e2⟩ | ⟨src, u, v, q, k, e, _, _, e2⟩ | ⟨l, k, e, _, e2⟩
          · rw [e2, Function.update_of_ne (fun h => hx (congrArg Prod.fst h))]
          · rw [e2, Function.update_of_ne (fun h => hy (congrArg (fun z => z.2.1) h))]
          · rw [e2]
        refine ih hw hb' (by rw [hpb]; exact hrecv) (β := β) ?_ (by rw [hpa]; exact hp) ?_
        · intro u
          rw [hch b a u (.inr ⟨rfl, rfl⟩)]
          exact hq u
        · rw [hch a b tg (.inl ⟨rfl, rfl⟩)]
          exact hl

/-- A step of anybody else takes nothing out of the queues to `b`. -/
theorem chan_grows {s s' : Sys n V L α} {l : Label n} {a b : Fin n} {tg : Tag} (h : s.step l = some s')
    (hl : ∀ src u k, s.procs b = .recv src u k → l ≠ .rank b) : (s.chan (a, b, tg)).length ≤ (s'.chan (a, b, tg)).length := by
  cases l with
  | barrier =>
    simp only [step, stepBarrier] at h
    split at h
    · cases h; exact Nat.le_refl _
    · cases h
  | rank r =>
    rcases stepRank_cases (show s.stepRank r = some s' from h) with
      ⟨d, u, v, k, e, _, e2⟩ | ⟨src, u, v, q, k, e, _, _, e2⟩ | ⟨l, k, e, _, e2⟩
    · rw [e2]
      by_cases hc : (a, b, tg) = (r, d, u)
      · rw [hc, Function.update_self]; simp
      · rw [Function.update_of_ne hc]; exact Nat.le_refl _
    · have hr : b ≠ r := by
        rintro rfl
        exact hl src u k e rfl
      rw [e2, Function.update_of_ne (fun h => hr (congrArg (fun z => z.2.1) h))]
      exact Nat.le_refl _
    · rw [e2]; exact Nat.le_refl _

/-- If programs that keep with `K` have one complete unbuffered execution from empty queues, then no execution ever has more than
`K tg` messages in a queue of tag `tg`. -/
theorem in_flight {K : Tag → Nat} {s f t : Sys n V L α} {w : List (Label n)} (h : SyncStar s f) (hf : f.AllDone)
    (hc : s.chan = fun _ => []) (hk : ∀ r, Keeps K (s.procs r)) (hw : s.exec w = some t) (a b : Fin n) (tg : Tag) :
    (t.chan (a, b, tg)).length ≤ K tg := by
  induction h generalizing w t with
  | refl s =>
    cases w with
    | nil =>
      simp only [exec_nil, Option.some.injEq] at hw
      subst hw
      rw [hc]
      exact Nat.zero_le _
    | cons l w =>
      simp only [exec_cons, terminal_of_allDone hf l] at hw
      cases hw
  | head h _ ih =>
    cases h with
    | rendezvous x y u v k k' hne hx hy hq h1 h2 =>
      rename_i s0 s1 f0 _ m
      have hstep : s0.step (.rank x) = some m := h1
      have hstep2 : m.step (.rank y) = some s1 := h2
      have hm1 : m.procs = Function.update s0.procs x k ∧ m.chan = Function.update s0.chan (x, y, u) [v] := by
        simp only [stepRank, hx] at h1
        cases h1
        simp [hq]
      have hmy : m.procs y = .recv x u k' := by rw [hm1.1, Function.update_of_ne hne.symm, hy]
      have hs1 : s1.chan = fun _ => [] := by
        have e : m.chan (x, y, u) = [v] := by rw [hm1.2, Function.update_self]
        simp only [stepRank, hmy, e] at h2
        cases h2
        funext c
        show Function.update m.chan (x, y, u) [] c = []
        rw [hm1.2, hc]
        by_cases hcc : c = (x, y, u)
        · rw [hcc, Function.update_self]
        · rw [Function.update_of_ne hcc, Function.update_of_ne hcc]
      have hkm := Keeps.stepRank h1 hk
      -- from here on the send of `x` has happened
      have main : ∀ (w : List (Label n)) (t : Sys n V L α), m.exec w = some t → (t.chan (a, b, tg)).length ≤ K tg := by
        intro w t hm
        have hres2 := residual hstep2 hm
        by_cases hmem2 : Label.rank y ∈ w
        · exact ih hf hs1 (Keeps.stepRank h2 hkm) (hres2.2 hmem2)
        · by_cases hby : b = y
          · subst hby
            by_cases hab : a = b
            · subst hab
              -- nobody but `a` itself can put something there
              obtain ⟨t', ht', hx'⟩ := hres2.1 hmem2
              have hg : (t.chan (a, a, tg)).length ≤ (t'.chan (a, a, tg)).length := by
                have hfr := procs_frame hm hmem2 (by rw [hmy]; rfl)
                rcases stepRank_cases (show t.stepRank a = some t' from ht') with
                  ⟨d, u', v', k2, e, _, e2⟩ | ⟨src, u', v', q, k2, e, _, _, e2⟩ | ⟨l, k2, e, _, e2⟩
                · rw [hfr, hmy] at e; cases e
                · rw [hfr, hmy] at e
                  cases e
                  rw [e2, Function.update_of_ne (fun h => hne (congrArg Prod.fst h).symm)]
                  exact Nat.le_refl _
                · rw [hfr, hmy] at e; cases e
              exact Nat.le_trans hg (ih hf hs1 (Keeps.stepRank h2 hkm) hx')
            · by_cases hax : a = x
              · subst hax
                obtain ⟨β, hβ, hp⟩ := hk a
                rw [hx] at hp
                have hq' : ∀ u', m.chan (b, a, u') = [] := by
                  intro u'
                  rw [hm1.2, Function.update_of_ne (fun h => hab (congrArg Prod.fst h).symm), hc]
                refine frozen hm hmem2 (by rw [hmy]; rfl) hab hq' (β := β.spend b u) ?_ ?_
                · rw [hm1.1, Function.update_self]
                  exact hp.2
                · by_cases htu : tg = u
                  · subst htu
                    have h1 := hp.1
                    have h2 := hβ b tg
                    rw [hm1.2, Function.update_self, spend_self, List.length_singleton]
                    omega
                  · have hne' : ((b, tg) : Fin n × Tag) ≠ (b, u) := fun h => htu (congrArg Prod.snd h)
                    rw [hm1.2, Function.update_of_ne (fun h => htu (congrArg (fun z => z.2.2) h)), spend_other hne', hc]
                    simpa using hβ b tg
              · obtain ⟨β, hβ, hp⟩ := hkm a
                have hq' : ∀ u', m.chan (b, a, u') = [] := by
                  intro u'
                  rw [hm1.2, Function.update_of_ne (fun h => hne (congrArg Prod.fst h).symm), hc]
                refine frozen hm hmem2 (by rw [hmy]; rfl) hab hq' hp ?_
                rw [hm1.2, Function.update_of_ne (fun h => hax (congrArg Prod.fst h)), hc]
                simpa using hβ b tg
          · obtain ⟨t', ht', hx'⟩ := hres2.1 hmem2
            refine Nat.le_trans (chan_grows ht' ?_) (ih hf hs1 (Keeps.stepRank h2 hkm) hx')
            intro _ _ _ _ e
            cases e
            exact hby rfl
      have hres := residual hstep hw
      by_cases hmem : Label.rank x ∈ w
      · exact main _ _ (hres.2 hmem)
      · obtain ⟨t', ht', hx'⟩ := hres.1 hmem
        refine Nat.le_trans (chan_grows ht' ?_) (main _ _ hx')
        have hfr := procs_frame hw hmem (by rw [hx]; rfl)
        intro src u' k2 e e'
        cases e'
        rw [hfr, hx] at e
        cases e
    | out r l k hr h =>
      rename_i s0 s1 f0 _
      have hstep : s0.step (.rank r) = some s1 := h
      have hs1 : s1.chan = fun _ => [] := by
        simp only [stepRank, hr] at h
        cases h
        exact hc
      have hres := residual hstep hw
      by_cases hmem : Label.rank r ∈ w
      · exact ih hf hs1 (Keeps.stepRank h hk) (hres.2 hmem)
      · obtain ⟨t', ht', hx'⟩ := hres.1 hmem
        refine Nat.le_trans (chan_grows ht' ?_) (ih hf hs1 (Keeps.stepRank h hk) hx')
        have hfr := procs_frame hw hmem (by rw [hr]; rfl)
        intro src u' k2 e e'
        cases e'
        rw [hfr, hr] at e
        cases e
    | barrier h =>
      rename_i s0 s1 f0 _
      have hstep : s0.step .barrier = some s1 := h
      have hs1 : s1.chan = fun _ => [] := by
        simp only [Sys.stepBarrier] at h
        split at h
        · cases h; exact hc
        · cases h
      have hres := residual hstep hw
      by_cases hmem : Label.barrier ∈ w
      · exact ih hf hs1 (Keeps.stepBarrier h hk) (hres.2 hmem)
      · obtain ⟨t', ht', hx'⟩ := hres.1 hmem
        refine Nat.le_trans (chan_grows ht' ?_) (ih hf hs1 (Keeps.stepBarrier h hk) hx')
        intro _ _ _ _ e
        cases e

end Sys
end NiiC
