import Verif.Trees.State
import Verif.Trees.Lemmas1

/-!
# Lemmas: `posterior` without effect
-/

namespace Verif.Trees

variable {D E : Type} {o : DistOps D E} {crop : CropSt D} {full : ℕ → Region} {e : Query} {h : Heap D}

/-- In this leaf, cropping to the evidence leaves the distributions as they are. -/
def Leaf.Keeps (o : DistOps D E) (crop : CropSt D) (full : ℕ → Region) (e : Query) (l : Leaf D) : Prop :=
  ∀ v r R d, e.lookup v = some r → (pathMap full l.path).lookup v = some R → l.dists[v]? = some d →
    crop d (r.inter R) = (o.crop d (r.inter R)).map (fun c => (c, d))

theorem posteriorSt_eq {l : Leaf D} (hk : l.Keeps o crop full e) (v : ℕ) :
    l.posteriorSt crop full e v = (l.posterior o full e v).map (fun d => (d, l)) := by
  unfold Leaf.posteriorSt Leaf.posterior Leaf.dist
  cases hd : l.dists[v]? with
  | none => rfl
  | some d =>
    simp only [bind, Except.bind]
    cases hr : e.lookup v with
    | none => rfl
    | some r =>
      cases hR : (pathMap full l.path).lookup v with
      | none => rfl
      | some R =>
        simp only [hk v r R d hr hR hd]
        cases o.crop d (r.inter R) with
        | error x => rfl
        | ok c =>
          simp only [Except.map]
          have : l.dists.set v d = l.dists := by
            obtain ⟨hlt, he⟩ := List.getElem?_eq_some_iff.1 hd
            rw [← he, List.set_getElem_self]
          rw [this]
          rfl

theorem posteriorsSt_eq {l : Leaf D} (hk : l.Keeps o crop full e) (vs : List ℕ) :
    l.posteriorsSt crop full e vs = (vs.mapM (l.posterior o full e)).map (fun ds => (ds, l)) := by
  induction vs with
  | nil => rfl
  | cons v vs ih =>
    rw [Leaf.posteriorsSt, posteriorSt_eq hk, List.mapM_cons]
    cases l.posterior o full e v with
    | error x => rfl
    | ok d =>
      simp only [Except.map, bind, Except.bind] at ih ⊢
      rw [ih]
      cases vs.mapM (l.posterior o full e) with
      | error x => rfl
      | ok ds => rfl

theorem contributionSt_eq {l : Leaf D} (hk : l.Keeps o crop full e) (vs : List ℕ) :
    l.contributionSt o crop full vs e = (l.contribution o full vs e).map (fun c => (c, l)) := by
  unfold Leaf.contributionSt Leaf.contribution
  cases l.evidence o full e with
  | error x => rfl
  | ok x =>
    cases x with
    | none => rfl
    | some x =>
      simp only [bind, Except.bind, posteriorsSt_eq hk]
      cases vs.mapM (l.posterior o full e) with
      | error x => rfl
      | ok ds => rfl

theorem contributions_eq (vs : List ℕ) (ls : List (ℕ × Leaf D)) (hk : ∀ l ∈ ls, l.2.Keeps o crop full e) :
    (ls.mapM (fun l : ℕ × Leaf D => do
      let c ← l.2.contributionSt o crop full vs e
      return (c.1, (l.1, c.2))) : Except Err _) =
    (ls.mapM (fun l : ℕ × Leaf D => l.2.contribution o full vs e)).map (fun cs => cs.zip ls) := by
  induction ls with
  | nil => rfl
  | cons l ls ih =>
    have ih' := ih (fun x hx => hk x (List.mem_cons_of_mem _ hx))
    rw [List.mapM_cons, List.mapM_cons, contributionSt_eq (hk l List.mem_cons_self)]
    cases l.2.contribution o full vs e with
    | error x => rfl
    | ok c =>
      simp only [Except.map, bind, Except.bind, pure, Except.pure] at ih' ⊢
      rw [ih']
      cases ls.mapM (fun l => l.2.contribution o full vs e) with
      | error x => rfl
      | ok cs => rfl

theorem mapM_length {α β : Type} {f : α → Except Err β} : ∀ {l : List α} {r : List β}, l.mapM f = .ok r →
    r.length = l.length := by
  intro l
  induction l with
  | nil => intro r h; cases h; rfl
  | cons a l ih =>
    intro r h
    rw [List.mapM_cons] at h
    cases ha : f a with
    | error x => rw [ha] at h; cases h
    | ok b =>
      cases hl : l.mapM f with
      | error x => rw [ha, hl] at h; cases h
      | ok s =>
        rw [ha, hl] at h
        cases h
        simp [ih hl]

theorem applyLoop_mem : ∀ (k : ℕ) (fr : List (Option ℕ)) (ls : List (ℕ × Leaf D)), applyLoop h e k fr = .ok ls →
    ∀ l ∈ ls, h.leaves.lookup l.1 = some l.2 := by
  intro k
  induction k with
  | zero =>
    intro fr ls hl l hm
    rw [applyLoop] at hl
    split at hl
    · cases hl; simp at hm
    · cases hl
  | succ k ih =>
    intro fr ls hl l hm
    match fr with
    | [] => rw [applyLoop] at hl; cases hl; simp at hm
    | none :: _ => rw [applyLoop] at hl; cases hl
    | some id :: fr =>
      rw [applyLoop] at hl
      cases hlk : h.leaves.lookup id with
      | some x =>
        rw [hlk] at hl
        cases hr : applyLoop h e k fr with
        | error y => simp [hr, bind, Except.bind] at hl
        | ok rest =>
          simp only [hr, bind, Except.bind, pure, Except.pure, Except.ok.injEq] at hl
          subst hl
          rcases List.mem_cons.1 hm with rfl | hm
          · exact hlk
          · exact ih _ _ hr l hm
      | none =>
        rw [hlk] at hl
        cases hn : h.inner.lookup id with
        | none => rw [hn] at hl; cases hl
        | some n => rw [hn] at hl; exact ih _ _ hl l hm

/-- If the distributions are left as they are, so is the tree, and the result is that of the model without
effects. -/
theorem posterior_keeps (hids : (h.leaves.map Prod.fst).Nodup) (hk : ∀ l ∈ h.leaves, l.2.Keeps o crop full e)
    (n : ℕ) (vs : List ℕ) :
    posteriorSt o crop n full h vs e = (posterior o n full h vs e).map (fun r => (r, h)) := by
  unfold posteriorSt posterior
  cases checkQuery n e with
  | error x => rfl
  | ok u =>
    cases hls : apply n h e with
    | error x => rfl
    | ok ls =>
      have hmem : ∀ l ∈ ls, h.leaves.lookup l.1 = some l.2 := by
        unfold apply at hls
        split at hls
        · cases hr : h.root with
          | none => rw [hr] at hls; cases hls
          | some r => rw [hr] at hls; exact applyLoop_mem _ _ _ hls
        · cases hls
      have hk' : ∀ l ∈ ls, l.2.Keeps o crop full e := fun l hl => hk _ (Dict.lookup_mem (hmem l hl))
      have hc := contributions_eq (o := o) (crop := crop) (full := full) (e := e) vs ls hk'
      simp only [bind, Except.bind, pure, Except.pure] at hc ⊢
      rw [hc]
      cases hcs : ls.mapM (fun l => l.2.contribution o full vs e) with
      | error x => rfl
      | ok cs =>
        have hlen := mapM_length hcs
        have h1 : (cs.zip ls).map Prod.snd = ls := by
          rw [List.map_snd_zip]; omega
        have h2 : (cs.zip ls).filterMap Prod.fst = cs.filterMap id := by
          have : (cs.zip ls).filterMap Prod.fst = ((cs.zip ls).map Prod.fst).filterMap id := by
            rw [List.filterMap_map]; rfl
          rw [this, List.map_fst_zip]; omega
        simp only [Except.map]
        rw [h1, h2]
        cases weightsOf ((cs.filterMap id).map Prod.fst) with
        | error x => rfl
        | ok ws =>
          have h3 : h.leaves.map (fun l => (l.1, (ls.lookup l.1).getD l.2)) = h.leaves := by
            conv_rhs => rw [← List.map_id h.leaves]
            apply List.map_congr_left
            intro l hl
            cases hlk : ls.lookup l.1 with
            | none => rfl
            | some x =>
              have := hmem _ (Dict.lookup_mem hlk)
              rw [Dict.mem_lookup hids (k := l.1) (b := l.2) hl] at this
              cases this
              rfl
          simp only [h3]

end Verif.Trees
