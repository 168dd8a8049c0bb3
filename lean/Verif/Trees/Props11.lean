import Verif.Trees.BindQuery
import Verif.Vars.Props3
import Verif.Seq.Props2

/-!
# C87: binding and asking

What `bind` assigns, translated to internal values, is the query for the labels the user describes; a tree learned over
symbolic and integer variables answers it with their share of the training rows.
-/

namespace Verif.Trees

open Vars Disc
open Learn (Cfg Data DataOK learn exists_ok fullOf)

/-- A symbolic or integer domain. -/
def HasLabels (d : Domain) : Prop := d.OK ∧ ((∃ n ls, d = .symbolic n ls) ∨ ∃ n a b, d = .integer n a b)

/-- Assigning values one after the other keeps the dictionaries in order. -/
theorem asg_mk_wf {check : Domain → Val → Except Err Unit} {data : List (Var Domain × Val)} {m0 m : Asg} (h0 : VMap.WF m0)
    (h : (data.map fun p => (Key.var p.1, p.2)).foldlM (fun m p => Asg.set check m p.1 p.2) m0 = .ok m) : VMap.WF m := by
  induction data generalizing m0 with
  | nil => cases h; exact h0
  | cons p data ih =>
    simp only [List.map_cons, List.foldlM_cons, bind, Except.bind, Asg.set] at h
    cases hc : check p.1.info p.2 with
    | error e => rw [hc] at h; cases h
    | ok u =>
      rw [hc] at h
      exact ih (VMap.setVar_wf h0 p.1 p.2) h

theorem valueAssignment_wf {m va : Asg} (h : m.valueAssignment = .ok va) : VMap.WF va := by
  change (VMap.items m >>= fun is => is.mapM (fun p => (do return (Key.var p.1, ← p.1.info.label2value p.2) :
    Except Err (Key Domain × Val))) >>= fun data => Asg.mk? checkValue data []) = .ok va at h
  cases h1 : VMap.items m with
  | error e => rw [h1] at h; cases h
  | ok is =>
    rw [h1] at h
    change (is.mapM (fun p => (do return (Key.var p.1, ← p.1.info.label2value p.2) :
      Except Err (Key Domain × Val))) >>= fun data => Asg.mk? checkValue data []) = .ok va at h
    cases h2 : is.mapM (fun p => (do return (Key.var p.1, ← p.1.info.label2value p.2) :
      Except Err (Key Domain × Val))) with
    | error e => rw [h2] at h; cases h
    | ok data =>
      rw [h2] at h
      have h3 := (mapM_ok_iff _ _ _).1 h2
      obtain ⟨d', rfl⟩ : ∃ d' : List (Var Domain × Val), data = d'.map fun p => (Key.var p.1, p.2) := by
        clear h h1 h2
        induction h3 with
        | nil => exact ⟨[], rfl⟩
        | @cons p b l r h t ih =>
          obtain ⟨d', rfl⟩ := ih
          cases h4 : p.1.info.label2value p.2 with
          | error e => rw [h4] at h; cases h
          | ok y =>
            rw [h4] at h
            cases h
            exact ⟨(p.1, y) :: d', rfl⟩
      exact asg_mk_wf (empty_wf []) h

/-- What is prepared for a symbolic or integer variable is a set. -/
theorem prepare_set {singular : Bool} {d : Domain} (hd : HasLabels d) {u : UArg} {x : Val}
    (hu : ∀ l, u = .set l → l.Nodup) (h : prepare singular none d u = .ok x) : ∃ l, x = .ev (.set l) ∧ l.Nodup := by
  rcases hd.2 with ⟨n, ls, rfl⟩ | ⟨n, a, b, rfl⟩
  · simp only [prepare] at h
    cases u with
    | none => cases h
    | tuple l => cases h
    | cs c => cases h
    | rs l => cases h
    | set l => cases h; exact ⟨l, rfl, hu l rfl⟩
    | atom b => cases h; exact ⟨_, rfl, by simp⟩
    | list l =>
      simp only [prepareSym, Bool.false_eq_true, if_false] at h
      cases h1 : l.mapM id with
      | none => rw [h1] at h; cases h
      | some r => rw [h1] at h; cases h; exact ⟨_, rfl, List.nodup_dedup _⟩
  · simp only [prepare] at h
    cases u with
    | none => cases h
    | tuple l => cases h
    | cs c => cases h
    | rs l => cases h
    | set l => cases h; exact ⟨l, rfl, hu l rfl⟩
    | atom b => cases h; exact ⟨_, rfl, by simp⟩
    | list l =>
      simp only [prepareSym, if_true, bind, Except.bind, pure, Except.pure] at h
      cases h1 : Vars.list2intset l with
      | error e => rw [h1] at h; cases h
      | ok r => rw [h1] at h; cases h; exact ⟨r, rfl, list2intset_nodup h1⟩

variable {vs : List (Var Domain)}

/-- C87: on symbolic and integer variables, the query that is asked with an assignment from `bind` has, for every
variable the user mentions, exactly the positions of the labels described last, and nothing for the others. -/
theorem C87_query (hvs : (vs.map Var.name).Nodup) (hdom : ∀ v ∈ vs, HasLabels v.info) {skip : Bool} {o : BindOpts}
    {q : List (Key Domain × UArg)} (hq : ∀ p ∈ q, ∀ v, p.1 = .var v → v ∈ vs)
    (hin : ∀ p ∈ q, ∀ v, Named vs p.1 v → ∀ a, p.2.Describes v.info a → a ∈ v.info.labels)
    (hset : ∀ p ∈ q, ∀ l, p.2 = .set l → l.Nodup) {m : Asg} (hm : preprocessQuery vs noBlur skip o q = .ok m) :
    ∃ va qs, m.valueAssignment = .ok va ∧ queryOf vs va = .ok qs ∧ (qs.map Prod.fst).Nodup ∧
      (∀ i ∈ qs, ∃ v, vs[i.1]? = some v ∧ ∃ l, i.2 = .set l ∧ ∀ z ∈ l, 0 ≤ z ∧ z < (v.info.labels.length : ℤ)) ∧
      (∀ (i : ℕ) v, vs[i]? = some v → (∀ p ∈ q, p.2 ≠ .none → ¬ Named vs p.1 v) → qs.lookup i = none) ∧
      ∀ pre k u post (i : ℕ) v, q = pre ++ (k, u) :: post → u ≠ .none → vs[i]? = some v → Named vs k v →
        (∀ p ∈ post, p.2 ≠ .none → ¬ Named vs p.1 v) →
        ∃ l, qs.lookup i = some (.set l) ∧ ∀ (j : ℕ) a, v.info.labels[j]? = some a → ((j : ℤ) ∈ l ↔ u.Describes v.info a) := by
  obtain ⟨h1, h2, h3, h4, h5⟩ := preprocess_last hvs hq hm
  have hinj : ∀ v ∈ vs, ∀ w ∈ vs, v.name = w.name → v = w := fun v hv w hw e => List.inj_on_of_nodup_map hvs hv hw e
  have hnd : vs.Nodup := List.Nodup.of_map _ hvs
  -- every assigned variable has a set of labels
  have hval : ∀ n x, (VMap.view m).val n = some x → ∃ v ∈ vs, v.name = n ∧ (VMap.view m).decl n = some v ∧
      ∃ l, x = .ev (.set l) ∧ l.Nodup ∧ ∀ a ∈ l, a ∈ v.info.labels := by
    intro n x hx
    obtain ⟨p, hp, v, -, hv, rfl, hn, hpr⟩ := h5 n x hx
    obtain ⟨l, rfl, hl⟩ := prepare_set (hdom v hv) (hset p hp) hpr
    exact ⟨v, hv, rfl, h2 v hv, l, rfl, hl, fun a ha => hin p hp v hn a ((prepare_meaning hpr a).1 ha)⟩
  obtain ⟨va, la, hva, -, hord, -, hc⟩ := C56_roundtrip m h1 (by
    intro n v x hd hx
    obtain ⟨w, hw, rfl, hd', l, rfl, hl, hl'⟩ := hval n x hx
    rw [hd'] at hd
    obtain rfl := Option.some.inj hd
    refine ⟨(hdom w hw).1, ?_⟩
    rcases (hdom w hw).2 with ⟨n, ls, e⟩ | ⟨n, a, b, e⟩ <;> rw [e] at hl' ⊢ <;> exact ⟨hl, hl'⟩)
  have hwva := valueAssignment_wf hva
  obtain ⟨-, -, -, -, -, -, is, hi1, hi2, -, -, hi3⟩ := C54_observe va hwva
  obtain ⟨-, -, -, ho1, ho2, -⟩ := C54_observe m h1
  -- the items
  have hitem : ∀ it ∈ is, ∃ l k, it.1 ∈ vs ∧ (VMap.view m).val it.1.name = some (.ev (.set l)) ∧ it.2 = .ev (.set k) ∧
      List.Forall₂ it.1.info.At l k := by
    intro it hit
    have hmem : it.1.name ∈ (VMap.view m).order := by
      rw [← hord, ← hi2]
      exact List.mem_map.2 ⟨it, hit, rfl⟩
    obtain ⟨x, hx⟩ := Option.ne_none_iff_exists'.1 ((ho1 _).1 hmem)
    obtain ⟨v, hv, hn, hd, l, rfl, -, -⟩ := hval _ _ hx
    obtain ⟨c1, ⟨y, c2, c3, -⟩, -⟩ := hc _ _ _ hd hx
    obtain ⟨c4, c5⟩ := hi3 it hit
    rw [c1] at c4
    cases c4
    rw [c2] at c5
    cases c5
    have : it.1.info.CorrSym (.ev (.set l)) it.2 := by
      rcases (hdom _ hv).2 with ⟨n, ls, e⟩ | ⟨n, a, b, e⟩ <;> rw [e] at c3 ⊢ <;> exact c3
    cases hy : it.2 with
    | cs c => rw [hy] at this; cases this
    | rs c => rw [hy] at this; cases this
    | ev e =>
      rw [hy] at this
      cases e with
      | set k => exact ⟨l, k, hv, hx, rfl, this⟩
      | atom a => cases this
      | list a => cases this
      | tuple a => cases this
  obtain ⟨qs, hqs, hq2⟩ := Seq.mapM_exists (l := is)
    (f := fun p => if p.1 ∈ vs then (do return (vs.idxOf p.1, ← valRegion p.2)) else .error .keyError)
    (Q := fun it b => ∃ l z, it.1 ∈ vs ∧ (VMap.view m).val it.1.name = some (.ev (.set l)) ∧ b = (vs.idxOf it.1, .set z) ∧
      List.Forall₂ (fun a (t : ℤ) => ∃ i : ℕ, it.1.info.labels[i]? = some a ∧ t = i) l z) (by
    intro it hit
    obtain ⟨l, k, a1, a2, a3, a4⟩ := hitem it hit
    obtain ⟨z, hz1, hz2⟩ : ∃ z, k.mapM (fun a => asInt (some a)) = .ok z ∧
        List.Forall₂ (fun a (t : ℤ) => ∃ i : ℕ, it.1.info.labels[i]? = some a ∧ t = i) l z := by
      clear a3
      have : ∃ z, List.Forall₂ (fun a b => asInt (some a) = .ok b) k z ∧
          List.Forall₂ (fun a (t : ℤ) => ∃ i : ℕ, it.1.info.labels[i]? = some a ∧ t = i) l z := by
        clear a2
        induction a4 with
        | nil => exact ⟨[], .nil, .nil⟩
        | cons h t ih =>
          obtain ⟨z, z1, z2⟩ := ih
          obtain ⟨i, i1, rfl⟩ := h
          exact ⟨(i : ℤ) :: z, .cons (asInt_ok.2 rfl) z1, .cons ⟨i, i1, rfl⟩ z2⟩
      obtain ⟨z, z1, z2⟩ := this
      exact ⟨z, (mapM_ok_iff _ _ _).2 z1, z2⟩
    refine ⟨(vs.idxOf it.1, .set z), ?_, l, z, a1, a2, rfl, hz2⟩
    simp only [if_pos a1, a3, valRegion, hz1, bind, Except.bind, pure, Except.pure])
  have hfst : qs.map Prod.fst = is.map (fun it => vs.idxOf it.1) := by
    clear hqs hi1 hi2 hi3 hitem
    induction hq2 with
    | nil => rfl
    | cons h t ih =>
      obtain ⟨l, z, -, -, rfl, -⟩ := h
      simp [ih]
  have hnd2 : (qs.map Prod.fst).Nodup := by
    rw [hfst]
    have hn : (is.map fun it => it.1.name).Nodup := by rw [hi2, hord]; exact ho2
    refine List.Nodup.map_on ?_ (List.Nodup.of_map _ hn)
    intro a ha b hb e
    obtain ⟨_, _, a1, -⟩ := hitem a ha
    obtain ⟨_, _, b1, -⟩ := hitem b hb
    exact List.inj_on_of_nodup_map hn ha hb (by rw [(List.idxOf_inj a1).1 e])
  refine ⟨va, qs, hva, ?_, hnd2, ?_, ?_, ?_⟩
  · unfold queryOf
    rw [hi1]
    exact hqs
  · intro i hi
    obtain ⟨it, hit, l, z, a1, -, rfl, a4⟩ := forall₂_left' hq2.flip hi
    refine ⟨it.1, ?_, z, rfl, ?_⟩
    · rw [List.getElem?_eq_getElem (List.idxOf_lt_length_iff.2 a1), List.getElem_idxOf]
    · intro t ht
      obtain ⟨a, -, j, hj, rfl⟩ := forall₂_left' a4.flip ht
      have := (List.getElem?_eq_some_iff.1 hj).1
      omega
  · intro i v hv hno
    rw [Dict.lookup_none]
    intro hmem
    rw [hfst] at hmem
    obtain ⟨it, hit, e⟩ := List.mem_map.1 hmem
    obtain ⟨l, k, a1, a2, -⟩ := hitem it hit
    have : it.1 = v := by
      rw [← e, List.getElem?_eq_getElem (List.idxOf_lt_length_iff.2 a1), List.getElem_idxOf] at hv
      exact Option.some.inj hv
    rw [this] at a1 a2
    rw [h3 v.name ?_] at a2
    · cases a2
    · intro p hp hpn w hw e
      have hw' : w ∈ vs := by
        rcases hw with h | ⟨-, h⟩
        · exact hq p hp w h
        · exact h
      rw [hinj w hw' v a1 e] at hw
      exact hno p hp hpn hw
  · intro pre k u post i v e hu hv hk hpost
    have hvm := List.mem_of_getElem? hv
    obtain ⟨x, hx, hpr⟩ := h4 pre k u post v e hu hk hpost
    have hmem : v.name ∈ is.map (fun it => it.1.name) := by
      rw [hi2, hord, ho1, hx]
      simp
    obtain ⟨it, hit, e2⟩ := List.mem_map.1 hmem
    obtain ⟨b, hb, l, z, a1, a2, rfl, a4⟩ := forall₂_left' hq2 hit
    have e3 := hinj it.1 a1 v hvm e2
    rw [e3] at hb a2 a4
    have hidx : vs.idxOf v = i := by
      obtain ⟨hlt, he⟩ := List.getElem?_eq_some_iff.1 hv
      rw [← he]
      exact List.Nodup.idxOf_getElem hnd i hlt
    rw [hidx] at hb
    refine ⟨z, Dict.mem_lookup hnd2 hb, ?_⟩
    intro j a hj
    rw [hx] at a2
    cases a2
    rw [← prepare_meaning hpr a]
    have hlab : v.info.labels.Nodup := Domain.labels_nodup (hdom v hvm).1
    constructor
    · intro hjz
      obtain ⟨a', ha', i', hi', e'⟩ := forall₂_left' a4.flip hjz
      have : j = i' := by omega
      subst this
      rw [hj] at hi'
      cases hi'
      exact ha'
    · intro ha
      obtain ⟨t, ht, i', hi', rfl⟩ := forall₂_left' a4 ha
      have : j = i' := by
        obtain ⟨h1, h2⟩ := List.getElem?_eq_some_iff.1 hj
        obtain ⟨h3, h4⟩ := List.getElem?_eq_some_iff.1 hi'
        exact (List.Nodup.getElem_inj_iff hlab).1 (h2.trans h4.symm)
      rw [this]
      exact ht

variable {c : Cfg} {kind : ℕ → Bool × Dom Atom} {data : Data} {total : ℕ}

/-- C87: a tree learned over symbolic and integer variables answers `infer(bind(name=value))` with the share of the
training rows whose label is one of those described. -/
theorem C87_frequency (hvs : (vs.map Var.name).Nodup) (hdom : ∀ v ∈ vs, HasLabels v.info) (hk : Discrete c kind)
    (hlen : c.vars.length = vs.length)
    (hkind : ∀ (i : ℕ) v, vs[i]? = some v → (kind i).2.labels = v.info.labels) (hdata : DataOK c data total)
    {h : Heap (DD Atom)} (hl : learn c data total (fitDisc kind data) = .ok h) {i : ℕ} {v : Var Domain} (hv : vs[i]? = some v)
    (lab : ℕ → Atom) (hlab : ∀ r < total, lab r ∈ v.info.labels ∧ data r i = (v.info.labels.idxOf (lab r) : ℚ))
    {u : UArg} (hu : u ≠ .none) (hset : ∀ l, u = .set l → l.Nodup) (hin : ∀ a, u.Describes v.info a → a ∈ v.info.labels)
    {m : Asg} (hm : bindQuery vs noBlur [] [(v.name, u)] = .ok m) (fail : Bool) :
    ∃ va qs, m.valueAssignment = .ok va ∧ queryOf vs va = .ok qs ∧
      ∀ D : ℕ → Bool, (∀ r < total, D r = true ↔ u.Describes v.info (lab r)) →
        infer (discOps Atom) c.vars.length (fullOf c) h qs [] fail = .ok (some (((List.range total).countP D : ℚ) / total)) := by
  have hvm := List.mem_of_getElem? hv
  have hnamed : ∀ w, Named vs (.name v.name) w → w = v := by
    rintro w (h | ⟨h, hw⟩)
    · cases h
    · exact List.inj_on_of_nodup_map hvs hw hvm (by injection h with h; exact h.symm)
  have hm' : preprocessQuery vs noBlur false ⟨false, true⟩ [(.name v.name, u)] = .ok m := hm
  obtain ⟨va, qs, h1, h2, h3, h4, h5, h6⟩ := C87_query hvs hdom
    (q := [(.name v.name, u)])
    (by intro p hp w e; simp only [List.mem_singleton] at hp; subst hp; cases e)
    (by
      intro p hp w hw a ha
      simp only [List.mem_singleton] at hp
      subst hp
      rw [hnamed w hw] at ha ⊢
      exact hin a ha)
    (by
      intro p hp l e
      simp only [List.mem_singleton] at hp
      subst hp
      exact hset l e) hm'
  obtain ⟨l, h7, h8⟩ := h6 [] (.name v.name) u [] i v rfl hu hv (.inr ⟨rfl, hvm⟩) (by simp)
  refine ⟨va, qs, h1, h2, fun D hD => ?_⟩
  have hnd : vs.Nodup := List.Nodup.of_map _ hvs
  have hqs : qs = [(i, .set l)] := by
    have hone : ∀ p ∈ qs, p.1 = i := by
      intro p hp
      by_contra hne
      obtain ⟨w, hw, -⟩ := h4 p hp
      have := h5 p.1 w hw (by
        intro r hr _ hn
        simp only [List.mem_singleton] at hr
        subst hr
        rw [hnamed w hn] at hw
        obtain ⟨a1, a2⟩ := List.getElem?_eq_some_iff.1 hw
        obtain ⟨a3, a4⟩ := List.getElem?_eq_some_iff.1 hv
        exact hne ((List.Nodup.getElem_inj_iff hnd).1 (a2.trans a4.symm)))
      rw [Dict.lookup_none] at this
      exact this (List.mem_map.2 ⟨p, hp, rfl⟩)
    match qs, h3, hone, h7 with
    | [], _, _, h7 => cases h7
    | [p], _, hone, h7 =>
      obtain ⟨a, b⟩ := p
      obtain rfl : a = i := hone (a, b) (by simp)
      simp at h7
      rw [h7]
    | p :: p' :: r, h3, hone, _ =>
      have e1 := hone p (by simp)
      have e2 := hone p' (by simp)
      simp [e1, e2] at h3
  subst hqs
  have hkl := hkind i v hv
  rw [C85_frequency hk hdata hl i (by rw [hlen]; exact (List.getElem?_eq_some_iff.1 hv).1) (.set l) ⟨⟨l, rfl, by
    obtain ⟨w, hw, l', e, hb⟩ := h4 (i, .set l) (by simp)
    rw [hv] at hw
    cases hw
    cases e
    rw [hkl]
    exact hb⟩, trivial⟩ fail]
  have : (List.range total).countP (fun r => decide ((Region.set l).Mem (.fin (data r i)))) = (List.range total).countP D := by
    apply List.countP_congr
    intro r hr
    obtain ⟨a1, a2⟩ := hlab r (List.mem_range.1 hr)
    rw [hD r (List.mem_range.1 hr), decide_eq_true_eq, ← h8 (v.info.labels.idxOf (lab r)) (lab r) (by
      rw [List.getElem?_eq_getElem (List.idxOf_lt_length_iff.2 a1), List.getElem_idxOf])]
    constructor
    · rintro ⟨z, hz, e⟩
      rw [a2] at e
      have : ((v.info.labels.idxOf (lab r) : ℕ) : ℤ) = z := by
        have := XQ.fin.inj e
        exact_mod_cast this
      rw [this]
      exact hz
    · intro hz
      exact ⟨_, hz, by rw [a2]; push_cast; rfl⟩
  rw [this]

/-! ### An example -/

/-- The variables of the example of learned trees. -/
abbrev exVs : List (Var Domain) := [⟨"w", .symbolic "W" [.str "sun", .str "rain"]⟩, ⟨"n", .integer "N" 1 3⟩]

/-- Their domains. -/
def exAtoms : ℕ → Bool × Dom Atom
  | 0 => (false, ⟨"W", [.str "sun", .str "rain"]⟩)
  | _ => (true, ⟨"N", [.int 1, .int 2, .int 3]⟩)

/-- The tree learned from six rows. -/
abbrev exLearnA : Except Err (Heap (DD Atom)) := learn (exA.cfg 6) exData 6 (fitDisc exAtoms exData)

theorem exAtoms_kind : Discrete (exA.cfg 6) exAtoms := by
  intro v hv
  match v, hv with
  | 0, _ => exact ⟨by decide +kernel, .inr ⟨rfl, rfl⟩⟩
  | 1, _ => exact ⟨by decide +kernel, .inl ⟨rfl, rfl⟩⟩
  | v + 2, hv => exact absurd hv (by simp [exA, Learn.Args.cfg])

/-- Four of the six rows have 2 or 3: `infer(bind(n=[2, 3]))` is 2/3; `infer(bind(w='rain'), bind(n=3))` is 1. -/
example : ∃ h, exLearnA = .ok h ∧
    (do infer (discOps Atom) 2 (fullOf (exA.cfg 6)) h (← queryOf exVs (← (← bindQuery exVs noBlur []
          [("n", .list [some (.int 2), some (.int 3)])]).valueAssignment)) [] true) = .ok (some (2 / 3)) ∧
    (do infer (discOps Atom) 2 (fullOf (exA.cfg 6)) h
          (← queryOf exVs (← (← bindQuery exVs noBlur [] [("w", .atom (.str "rain"))]).valueAssignment))
          (← queryOf exVs (← (← bindQuery exVs noBlur [] [("n", .atom (.int 3))]).valueAssignment)) true) = .ok (some 1) :=
  exists_ok (by decide +kernel)

/-- The theorem applies to this tree. -/
example {h : Heap (DD Atom)} (hl : exLearnA = .ok h) {m : Asg}
    (hm : bindQuery exVs noBlur [] [("n", .list [some (.int 2), some (.int 3)])] = .ok m) :
    ∃ va qs, m.valueAssignment = .ok va ∧ queryOf exVs va = .ok qs ∧
      infer (discOps Atom) 2 (fullOf (exA.cfg 6)) h qs [] true = .ok (some (2 / 3)) := by
  have hdesc : ∀ a : Atom, (UArg.list [some (.int 2), some (.int 3)]).Describes (.integer "N" 1 3) a ↔
      a = .int 2 ∨ a = .int 3 := by
    intro a
    simp only [UArg.Describes, UArg.DescribesInt, Between, Atom.int, Option.some.injEq, Atom.num.injEq, forall_eq', XQ.fin_le,
      Int.cast_le]
    constructor
    · rintro ⟨z, rfl, h1, h2⟩
      have : z = 2 ∨ z = 3 := by omega
      rcases this with rfl | rfl
      · exact .inl rfl
      · exact .inr rfl
    · rintro (rfl | rfl)
      · exact ⟨2, rfl, by decide, by decide⟩
      · exact ⟨3, rfl, by decide, by decide⟩
  obtain ⟨va, qs, h1, h2, h3⟩ := C87_frequency (vs := exVs) (c := exA.cfg 6) (kind := exAtoms) (data := exData) (total := 6)
    (by decide) (by
      intro v hv
      simp only [List.mem_cons, List.not_mem_nil, or_false] at hv
      rcases hv with rfl | rfl
      · exact ⟨by show List.Nodup _; decide +kernel, .inl ⟨_, _, rfl⟩⟩
      · exact ⟨trivial, .inr ⟨_, _, _, rfl⟩⟩) exAtoms_kind rfl (by
      intro i v hv
      match i, hv with
      | 0, hv => cases hv; rfl
      | 1, hv => cases hv; decide +kernel
      ) exA_data hl (i := 1) rfl
    (fun r => ([.int 1, .int 1, .int 2, .int 3, .int 3, .int 2] : List Atom).getD r (.int 1)) (by decide +kernel)
    (by simp) (by simp) (by
      intro a ha
      rcases (hdesc a).1 ha with rfl | rfl <;> decide +kernel) hm true
  refine ⟨va, qs, h1, h2, ?_⟩
  refine (h3 (fun r => decide (2 ≤ r)) ?_).trans ?_
  · intro r hr
    rw [hdesc]
    have hcases : r = 0 ∨ r = 1 ∨ r = 2 ∨ r = 3 ∨ r = 4 ∨ r = 5 := by omega
    rcases hcases with rfl | rfl | rfl | rfl | rfl | rfl <;> decide +kernel
  · congr 2
    decide +kernel

end Verif.Trees
