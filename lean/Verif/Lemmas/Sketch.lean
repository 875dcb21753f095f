import Verif.Lemmas.Consistent
import Verif.Lemmas.AddTotal
/-!
# Networks of nodes without data

`Sketch d tn NL`: the nodes of `tn` and their legs are listed in `NL`, all edges have dimension `d` (`none`: unknown), nothing is open or fixed.
-/

namespace Verif

variable {τ : Type}

/-- The nodes and legs of a network without fixed or open edges, all edges of one dimension. -/
structure Sketch (d : Option Nat) (tn : TN τ) (NL : List (Nm × List Nm)) : Prop where
  cons : tn.Consistent
  legs : tn.nodes.map (fun p => (p.1, p.2.legs)) = NL
  edges : ∀ e r, tn.edges.get? e = some r → r.dim = d ∧ r.fix = none
  keys : ∀ e, e ∈ tn.edges.keys ↔ ∃ p ∈ NL, e ∈ p.2
  opn : tn.openE = []

theorem Sketch.empty (d : Option Nat) : Sketch d ({} : TN τ) [] where
  cons := ⟨List.nodup_nil, List.nodup_nil, fun n r h => by simp at h, fun e h => by simp at h, fun n e => by simp, List.nodup_nil⟩
  legs := rfl
  edges := fun e r h => by simp at h
  keys := fun e => by simp [Dict.keys]
  opn := rfl

theorem Sketch.names {d : Option Nat} {tn : TN τ} {NL : List (Nm × List Nm)} (h : Sketch d tn NL) : tn.nodes.keys = NL.map Prod.fst := by
  rw [← h.legs, List.map_map]; rfl

theorem TN.addNodeEdges_none {tn : TN τ} {es : List Nm} {i : Nat} :
    ∃ E' : Dict Nm EdgeRec, tn.addNodeEdges none i es = ({ tn with edges := E' }, .ok ()) ∧
      (∀ e r, E'.get? e = some r → tn.edges.get? e = some r ∨ (e ∈ es ∧ e ∉ tn.edges.keys ∧ r = ⟨none, none⟩)) ∧
      ∀ e, e ∈ E'.keys ↔ e ∈ tn.edges.keys ∨ e ∈ es := by
  induction es generalizing tn i with
  | nil => exact ⟨tn.edges, rfl, fun e r h => Or.inl h, by simp⟩
  | cons e es ih =>
    have hadd : ∃ E1 : Dict Nm EdgeRec, tn.addEdge (some e) none = ({ tn with edges := E1 }, .ok e) ∧
        (∀ x r, E1.get? x = some r → tn.edges.get? x = some r ∨ (x = e ∧ x ∉ tn.edges.keys ∧ r = ⟨none, none⟩)) ∧
        ∀ x, x ∈ E1.keys ↔ x ∈ tn.edges.keys ∨ x = e := by
      unfold addEdge addEdgeNamed
      dsimp only
      by_cases hh : tn.edges.has e = true
      · rw [if_pos hh]
        refine ⟨tn.edges, rfl, fun x r h => Or.inl h, fun x => ⟨Or.inl, fun h => h.elim id fun h => ?_⟩⟩
        rw [h]; exact Dict.has_iff.1 hh
      · rw [if_neg hh]
        refine ⟨_, rfl, fun x r h => ?_, fun x => ?_⟩
        · rw [Dict.get?_set] at h
          split at h
          · next hx =>
            cases h
            subst hx
            exact Or.inr ⟨rfl, fun hk => hh (Dict.has_iff.2 hk), rfl⟩
          · exact Or.inl h
        · rw [Dict.mem_keys_set, or_comm]
    obtain ⟨E1, h1, h2, h3⟩ := hadd
    obtain ⟨E2, k1, k2, k3⟩ := ih (tn := { tn with edges := E1 }) (i := i + 1)
    refine ⟨E2, ?_, fun x r h => ?_, fun x => ?_⟩
    · rw [addNodeEdges]
      simp only [dimAt, h1]
      exact k1
    · rcases k2 x r h with h | ⟨h4, h5, h6⟩
      · rcases h2 x r h with h | ⟨h4, h5, h6⟩
        · exact Or.inl h
        · exact Or.inr ⟨by simp [h4], h5, h6⟩
      · refine Or.inr ⟨by simp [h4], fun hk => h5 ((h3 x).2 (Or.inl hk)), h6⟩
    · rw [k3, List.mem_cons, ← or_assoc]
      show x ∈ E1.keys ∨ _ ↔ _
      rw [h3]

theorem TN.updateDimension_none {tn : TN τ} {l : Dict Nm (Option Nat)} (hl : ∀ p ∈ l, p.1 ∈ tn.edges.keys ∧ p.2 = none) :
    ∃ E' : Dict Nm EdgeRec, tn.updateDimension l = ({ tn with edges := E' }, .ok ()) ∧ ∀ e, E'.get? e = tn.edges.get? e := by
  unfold updateDimension
  induction l generalizing tn with
  | nil => exact ⟨tn.edges, rfl, fun _ => rfl⟩
  | cons p l ih =>
    obtain ⟨e, d⟩ := p
    obtain ⟨h2, h3⟩ := hl (e, d) (by simp)
    dsimp only at h2 h3
    subst h3
    obtain ⟨er, her⟩ := Dict.exists_get? h2
    have h1 : ∃ E1 : Dict Nm EdgeRec, tn.updateDim1 (e, none) = ({ tn with edges := E1 }, .ok ()) ∧ ∀ x, E1.get? x = tn.edges.get? x := by
      unfold updateDim1
      rw [her]
      dsimp only
      cases hd : er.dim with
      | none =>
        refine ⟨_, rfl, fun x => ?_⟩
        rw [Dict.get?_set]
        split
        · next hx => subst hx; rw [her]; simp [← hd]
        · rfl
      | some d => exact ⟨tn.edges, rfl, fun _ => rfl⟩
    obtain ⟨E1, k1, k2⟩ := h1
    obtain ⟨E2, m1, m2⟩ := ih (tn := { tn with edges := E1 }) fun p hp => by
      obtain ⟨a, b⟩ := hl p (by simp [hp])
      refine ⟨?_, b⟩
      rw [← Dict.get?_isSome] at *
      show (E1.get? p.1).isSome = true
      rw [k2]; exact a
    exact ⟨E2, by rw [forLoop, k1]; exact m1, fun x => (m2 x).trans (k2 x)⟩

theorem mem_foldl_none {l : List Nm} {d : Dict Nm (Option Nat)} {p : Nm × Option Nat}
    (h : p ∈ l.foldl (fun d e => d.set e none) d) : p ∈ d ∨ (p.1 ∈ l ∧ p.2 = none) := by
  induction l generalizing d with
  | nil => exact Or.inl h
  | cons q l ih =>
    rw [List.foldl_cons] at h
    rcases ih h with h | h
    · rcases Dict.mem_of_mem_set h with h | h
      · exact Or.inr (by simp [h])
      · exact Or.inl h
    · exact Or.inr (by simp [h])

/-- Adding a node without data. -/
theorem Sketch.addNode [HasShape τ] {d : Option Nat} {tn : TN τ} {NL : List (Nm × List Nm)} (h : Sketch d tn NL) {hole : τ}
    (hh : HasShape.shape hole = none) {n ident : Nm} {es : List Nm} (hn : n ∉ NL.map Prod.fst) (hd : d = none ∨ ∀ e ∈ es, ∃ p ∈ NL, e ∈ p.2) :
    ∃ tn', tn.addNode (some n) ident (some es) hole false = (tn', .ok n) ∧ Sketch d tn' (NL ++ [(n, es)]) := by
  have hnk : n ∉ tn.nodes.keys := by rw [h.names]; exact hn
  obtain ⟨E1, h1, h2, h3⟩ := TN.addNodeEdges_none (tn := tn.putNode n es false) (es := es) (i := 0)
  have hleg : (tn.nodes.set n { legs := es, ten := (tn.nodes.get? n).bind NodeRec.ten, frozen := false }).get? n =
      some { legs := es, ten := (tn.nodes.get? n).bind NodeRec.ten, frozen := false } := by rw [Dict.get?_set, if_pos rfl]
  obtain ⟨E2, k1, k2⟩ := TN.updateDimension_none (tn := { nodes := (tn.nodes.set n { legs := es, ten := (tn.nodes.get? n).bind NodeRec.ten, frozen := false }).set n { legs := es, ten := some hole, frozen := false }, edges := E1, adj := TN.addAdjs tn.adj (es.map fun e => (n, e)), openE := tn.openE, idCount := tn.idCount })
    (l := es.foldl (fun d e => d.set e none) []) fun p hp => by
      rcases mem_foldl_none hp with hp | hp
      · simp at hp
      · exact ⟨(h3 p.1).2 (Or.inr hp.1), hp.2⟩
  rw [Dict.set_set] at k1
  have hok : tn.addNode (some n) ident (some es) hole false = ({ nodes := tn.nodes.set n { legs := es, ten := some hole, frozen := false }, edges := E2, adj := TN.addAdjs tn.adj (es.map fun e => (n, e)), openE := tn.openE, idCount := tn.idCount }, .ok n) := by
    unfold TN.addNode
    rw [if_neg (by simp [TN.nameTaken, Dict.has_eq_false.2 hnk])]
    simp only [TN.newLegs, Option.getD_some, hh, h1]
    unfold TN.updateNode
    simp only [TN.putNode] at *
    simp only [hleg, hh, Dict.set_set, k1]
    rfl
  refine ⟨_, hok, h.cons.addNode (by simp) hok, ?_, fun e r he => ?_, fun e => ?_, h.opn⟩
  · show List.map _ (tn.nodes.set n _) = _
    rw [Dict.set_eq_append hnk, List.map_append, h.legs]
    rfl
  · have he : E2.get? e = some r := he
    rw [k2] at he
    rcases h2 e r he with he | ⟨h4, h5, h6⟩
    · exact h.edges e r he
    · subst h6
      refine ⟨?_, rfl⟩
      rcases hd with hd | hd
      · exact hd.symm
      · exact absurd ((h.keys e).2 (hd e h4)) h5
  · show e ∈ E2.keys ↔ _
    rw [← Dict.get?_isSome, k2, Dict.get?_isSome]
    show e ∈ E1.keys ↔ _
    rw [h3]
    show e ∈ tn.edges.keys ∨ _ ↔ _
    rw [h.keys]
    simp only [List.mem_append, List.mem_singleton, or_and_right, exists_or, exists_eq_left]

/-- Merging two edges of unknown dimension into a new one. -/
theorem Sketch.merge {tn : TN τ} {NL : List (Nm × List Nm)} (h : Sketch none tn NL) {a b m : Nm} (hab : a ≠ b)
    (ha : ∃ p ∈ NL, a ∈ p.2) (hb : ∃ p ∈ NL, b ∈ p.2) (hm : ¬ ∃ p ∈ NL, m ∈ p.2) :
    ∃ tn', tn.mergeEdges [a, b] (some m) none = (tn', .ok m) ∧ Sketch none tn' (NL.map fun p => (p.1, p.2.map fun i => if i ∈ [a, b] then m else i)) := by
  have hmk : m ∉ tn.edges.keys := fun hk => hm ((h.keys m).1 hk)
  obtain ⟨ra, hra⟩ := Dict.exists_get? ((h.keys a).2 ha)
  obtain ⟨rb, hrb⟩ := Dict.exists_get? ((h.keys b).2 hb)
  obtain ⟨da, fa⟩ := h.edges a ra hra
  obtain ⟨db, fb⟩ := h.edges b rb hrb
  have ham : a ≠ m := fun hc => hm (hc ▸ ha)
  have hbm : b ≠ m := fun hc => hm (hc ▸ hb)
  have hmh : tn.edges.has m = false := Dict.has_eq_false.2 hmk
  have hok : ∃ tn' : TN τ, tn.mergeEdges [a, b] (some m) none = (tn', .ok m) ∧ tn'.openE = [] ∧
      tn'.nodes = tn.nodes.mapIf (tn.nodeOfEdges [a, b]) (TN.renameLegs [a, b] m) ∧
      ∀ e, tn'.edges.get? e = if e = a ∨ e = b then none else if e = m then some ⟨none, none⟩ else tn.edges.get? e := by
    have g1 : ((tn.edges.set m { dim := none }).set m { dim := none }).get? a = some ra := by
      rw [Dict.get?_set, if_neg (Ne.symm ham), Dict.get?_set, if_neg (Ne.symm ham), hra]
    have g2 : (((tn.edges.set m { dim := none }).set m { dim := none }).del a).get? b = some rb := by
      rw [Dict.get?_del, if_neg (Ne.symm hab), Dict.get?_set, if_neg (Ne.symm hbm), Dict.get?_set, if_neg (Ne.symm hbm), hrb]
    have g3 : (tn.edges.set m { dim := none }).get? m = some { dim := none } := by rw [Dict.get?_set, if_pos rfl]
    suffices hs : (tn.mergeEdges [a, b] (some m) none).2 = .ok m ∧ (tn.mergeEdges [a, b] (some m) none).1.openE = [] ∧
        (tn.mergeEdges [a, b] (some m) none).1.nodes = tn.nodes.mapIf (tn.nodeOfEdges [a, b]) (TN.renameLegs [a, b] m) ∧
        ∀ e, (tn.mergeEdges [a, b] (some m) none).1.edges.get? e = if e = a ∨ e = b then none else if e = m then some ⟨none, none⟩ else tn.edges.get? e from
      ⟨_, Prod.ext rfl hs.1, hs.2⟩
    unfold TN.mergeEdges
    simp only [TN.mergeDim, hra, hrb, show (some m).or none = some m from rfl, Option.isSome_some, hmh, Bool.not_false, Bool.and_true, if_true, TN.addEdge, TN.addEdgeNamed, Bool.false_eq_true, if_false,
      TN.updateDimension, forLoop, TN.updateDim1, g3, db, TN.mergeStep, g1, fa, TN.mergeFix, if_neg ham, g2, fb, if_neg hbm, h.opn, List.map_nil, List.all_nil]
    refine ⟨trivial, trivial, rfl, ?_⟩
    · intro e
      show Dict.get? (Dict.del (Dict.del _ a) b) e = _
      rw [Dict.get?_del, Dict.get?_del, Dict.get?_set, Dict.get?_set]
      by_cases h1 : b = e
      · subst h1; simp
      · by_cases h2 : a = e
        · subst h2; simp
        · by_cases h3 : m = e
          · subst h3; simp [h1, h2, Ne.symm h1, Ne.symm h2]
          · simp [h1, h2, h3, Ne.symm h1, Ne.symm h2, Ne.symm h3]
  obtain ⟨tn', h1, h2, h3, h4⟩ := hok
  refine ⟨tn', h1, h.cons.mergeEdges h1, ?_, ?_, ?_, h2⟩
  · rw [h3, ← h.legs, Dict.mapIf, List.map_map, List.map_map]
    refine List.map_congr_left fun p hp => ?_
    have hp : tn.nodes.get? p.1 = some p.2 := Dict.get?_of_mem h.cons.nodes_nodup hp
    simp only [Function.comp]
    split
    · rfl
    · next ht =>
      rw [TN.nodeOfEdges_iff] at ht
      refine Prod.ext rfl ?_
      show p.2.legs = p.2.legs.map _
      conv_lhs => rw [← List.map_id p.2.legs]
      refine List.map_congr_left fun i hi => ?_
      rw [if_neg]
      · rfl
      · exact fun hc => ht ⟨i, hc, (h.cons.adj_iff _ _).2 ⟨_, hp, hi⟩⟩
  · intro e r he
    rw [h4] at he
    split at he
    · simp at he
    · split at he
      · cases he; exact ⟨rfl, rfl⟩
      · exact h.edges e r he
  · intro e
    rw [← Dict.get?_isSome, h4]
    have hk : (tn.edges.get? e).isSome = true ↔ _ := Dict.get?_isSome.trans (h.keys e)
    simp only [List.mem_map, exists_exists_and_eq_and]
    by_cases h5 : e = a ∨ e = b
    · rw [if_pos h5]
      simp only [Option.isSome_none, Bool.false_eq_true, false_iff, not_exists, not_and]
      intro p hp i hi hc
      split at hc
      · rcases h5 with h5 | h5
        · exact ham (h5 ▸ hc.symm)
        · exact hbm (h5 ▸ hc.symm)
      · next hn => subst hc; exact hn (by simpa using h5)
    · rw [if_neg h5]
      by_cases h6 : e = m
      · rw [if_pos h6]
        simp only [Option.isSome_some, true_iff]
        obtain ⟨p, hp, hi⟩ := ha
        exact ⟨p, hp, a, hi, by simp [h6]⟩
      · rw [if_neg h6, hk]
        refine exists_congr fun p => and_congr_right fun hp => ?_
        constructor
        · intro hi
          exact ⟨e, hi, if_neg (by simpa using h5)⟩
        · rintro ⟨i, hi, hc⟩
          split at hc
          · exact absurd hc.symm h6
          · exact hc ▸ hi

/-- Giving all edges a dimension. -/
theorem Sketch.setDim {tn : TN τ} {NL : List (Nm × List Nm)} (h : Sketch none tn NL) (d : Nat) :
    ∃ tn', tn.updateDimension (tn.edges.keys.map fun e => (e, some d)) = (tn', .ok ()) ∧ Sketch (some d) tn' NL := by
  have key : ∀ (l : List Nm), l.Nodup → ∀ tn : TN τ, (∀ e ∈ l, ∃ r, tn.edges.get? e = some r ∧ r.dim = none) →
      ∃ E' : Dict Nm EdgeRec, tn.updateDimension (l.map fun e => (e, some d)) = ({ tn with edges := E' }, .ok ()) ∧ E'.keys = tn.edges.keys ∧
        ∀ e, E'.get? e = if e ∈ l then (tn.edges.get? e).map (fun r => { r with dim := some d }) else tn.edges.get? e := by
    intro l
    induction l with
    | nil => exact fun _ tn _ => ⟨tn.edges, rfl, rfl, fun e => by simp⟩
    | cons x l ih =>
      intro hn tn hl
      rw [List.nodup_cons] at hn
      obtain ⟨r, hr, hd⟩ := hl x (by simp)
      obtain ⟨E', h1, h2, h3⟩ := ih hn.2 { tn with edges := tn.edges.set x { r with dim := some d } } fun e he => by
        obtain ⟨r', h1, h2⟩ := hl e (by simp [he])
        refine ⟨r', ?_, h2⟩
        show Dict.get? (Dict.set _ _ _) e = _
        rw [Dict.get?_set, if_neg (fun hc : x = e => hn.1 (hc ▸ he)), h1]
      refine ⟨E', ?_, ?_, fun e => ?_⟩
      · unfold TN.updateDimension at *
        rw [List.map_cons, forLoop]
        simp only [TN.updateDim1, hr, hd]
        exact h1
      · rw [h2]
        show Dict.keys (Dict.set _ _ _) = _
        rw [Dict.keys_set, if_pos (Dict.mem_keys_of_get? hr)]
      · rw [h3]
        show (if e ∈ l then Option.map _ (Dict.get? (Dict.set _ _ _) e) else Dict.get? (Dict.set _ _ _) e) = _
        rw [Dict.get?_set]
        by_cases hx : x = e
        · subst hx
          rw [if_neg hn.1, if_pos rfl, if_pos (by simp), hr]
          rfl
        · rw [if_neg hx]
          refine if_congr ?_ rfl rfl
          simp [Ne.symm hx]
  obtain ⟨E', h1, h2, h3⟩ := key _ h.cons.edges_nodup tn fun e he => by
    obtain ⟨r, hr⟩ := Dict.exists_get? he
    exact ⟨r, hr, (h.edges e r hr).1⟩
  refine ⟨_, h1, ?_, h.legs, fun e r he => ?_, fun e => ?_, h.opn⟩
  · have := h.cons.updateDimension (tn.edges.keys.map fun e => (e, some d))
    rw [h1] at this
    exact this
  · have he : E'.get? e = some r := he
    rw [h3] at he
    split at he
    · rw [Option.map_eq_some_iff] at he
      obtain ⟨r0, h4, rfl⟩ := he
      exact ⟨rfl, (h.edges e r0 h4).2⟩
    · next hc => exact absurd (Dict.mem_keys_of_get? he) hc
  · show e ∈ E'.keys ↔ _
    rw [h2, h.keys]

end Verif
