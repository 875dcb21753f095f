import Verif.Lemmas.AddNode
/-! # Helper lemmas: when `add_node` succeeds -/

namespace Verif

variable {τ : Type}

theorem Dict.mem_of_mem_set {K V : Type} [DecidableEq K] {d : Dict K V} {k : K} {v : V} {p : K × V}
    (h : p ∈ d.set k v) : p = (k, v) ∨ p ∈ d := by
  induction d with
  | nil => rw [Dict.set, List.mem_singleton] at h; exact Or.inl h
  | cons q d ih =>
    obtain ⟨k', v'⟩ := q
    rw [Dict.set] at h
    split at h
    · rcases List.mem_cons.1 h with h | h
      · exact Or.inl h
      · exact Or.inr (by simp [h])
    · rcases List.mem_cons.1 h with h | h
      · exact Or.inr (by simp [h])
      · rcases ih h with h | h
        · exact Or.inl h
        · exact Or.inr (by simp [h])

/-- The dimensions `D` agree with those the network already has on the edges in `S`. -/
def TN.Fits (tn : TN τ) (D : Nm → Nat) (S : List Nm) : Prop :=
  ∀ e ∈ S, ∀ er, tn.edges.get? e = some er → er.dim = none ∨ er.dim = some (D e)

theorem TN.updateDim1_total {tn : TN τ} {D : Nm → Nat} {S : List Nm} {e : Nm} (hf : tn.Fits D S) (he : e ∈ S)
    (hk : e ∈ tn.edges.keys) : ∃ tn', tn.updateDim1 (e, some (D e)) = (tn', .ok ()) ∧ tn'.nodes = tn.nodes ∧
      tn'.Fits D S ∧ tn'.edges.keys = tn.edges.keys := by
  obtain ⟨er, her⟩ := Dict.exists_get? hk
  unfold updateDim1
  rw [her]
  dsimp only
  rcases hf e he er her with h | h
  · rw [h]
    refine ⟨_, rfl, rfl, fun x hx xr hxr => ?_, ?_⟩
    · dsimp only at hxr
      rw [Dict.get?_set] at hxr
      split at hxr
      · next hxe => cases hxr; subst hxe; exact Or.inr rfl
      · exact hf x hx xr hxr
    · show Dict.keys (tn.edges.set e _) = _
      rw [Dict.keys_set, if_pos hk]
  · rw [h]
    dsimp only
    rw [if_pos rfl]
    exact ⟨tn, rfl, rfl, hf, rfl⟩

theorem TN.updateDimension_total {tn : TN τ} {D : Nm → Nat} {S : List Nm} {l : Dict Nm (Option Nat)} (hf : tn.Fits D S)
    (hl : ∀ p ∈ l, p.1 ∈ S ∧ p.1 ∈ tn.edges.keys ∧ p.2 = some (D p.1)) :
    ∃ tn', tn.updateDimension l = (tn', .ok ()) ∧ tn'.nodes = tn.nodes ∧ tn'.Fits D S ∧ tn'.edges.keys = tn.edges.keys := by
  unfold updateDimension
  induction l generalizing tn with
  | nil => exact ⟨tn, rfl, rfl, hf, rfl⟩
  | cons p l ih =>
    obtain ⟨e, d⟩ := p
    obtain ⟨h1, h2, h3⟩ := hl (e, d) (by simp)
    dsimp only at h1 h2 h3
    subst h3
    obtain ⟨t1, k1, k2, k3, k4⟩ := updateDim1_total hf h1 h2
    obtain ⟨t2, m1, m2, m3, m4⟩ := ih (tn := t1) k3 fun p hp => by rw [k4]; exact hl p (by simp [hp])
    refine ⟨t2, ?_, m2.trans k2, m3, m4.trans k4⟩
    rw [forLoop, k1]
    exact m1

theorem TN.addEdge_total {tn : TN τ} {D : Nm → Nat} {S : List Nm} {e : Nm} (hf : tn.Fits D S) (he : e ∈ S) :
    ∃ tn', tn.addEdge (some e) (some (D e)) = (tn', .ok e) ∧ tn'.nodes = tn.nodes ∧ tn'.Fits D S ∧
      ∀ x, x ∈ tn'.edges.keys ↔ x ∈ tn.edges.keys ∨ x = e := by
  unfold addEdge addEdgeNamed
  dsimp only
  by_cases hh : tn.edges.has e = true
  · have hk : e ∈ tn.edges.keys := Dict.has_iff.1 hh
    rw [if_pos hh, if_pos (show (some (D e)).isSome = true from rfl)]
    obtain ⟨t1, k1, k2, k3, k4⟩ := updateDimension_total (l := [(e, some (D e))]) hf
      (fun p hp => by rw [List.mem_singleton] at hp; subst hp; exact ⟨he, hk, rfl⟩)
    rw [k1]
    refine ⟨t1, rfl, k2, k3, fun x => ?_⟩
    rw [k4]
    exact ⟨Or.inl, fun h => h.elim id fun h => h ▸ hk⟩
  · rw [if_neg hh]
    refine ⟨_, rfl, rfl, fun x hx xr hxr => ?_, fun x => ?_⟩
    · dsimp only at hxr
      rw [Dict.get?_set] at hxr
      split at hxr
      · next hxe => cases hxr; subst hxe; exact Or.inr rfl
      · exact hf x hx xr hxr
    · show x ∈ Dict.keys (tn.edges.set e _) ↔ _
      rw [Dict.mem_keys_set, or_comm]

theorem TN.addNodeEdges_total {tn : TN τ} {D : Nm → Nat} {S : List Nm} {sh : List (Option Nat)} {i : Nat} {es : List Nm}
    (hf : tn.Fits D S) (hS : ∀ e ∈ es, e ∈ S) (hsh : sh.drop i = (es.map D).map some) :
    ∃ tn', tn.addNodeEdges (some sh) i es = (tn', .ok ()) ∧ tn'.nodes = tn.nodes ∧ tn'.Fits D S ∧
      ∀ x, x ∈ tn'.edges.keys ↔ x ∈ tn.edges.keys ∨ x ∈ es := by
  induction es generalizing tn i with
  | nil => exact ⟨tn, rfl, rfl, hf, by simp⟩
  | cons e es ih =>
    obtain ⟨t1, k1, k2, k3, k4⟩ := addEdge_total hf (hS e (by simp))
    have hi : sh[i]? = some (some (D e)) := by
      have : (sh.drop i)[0]? = some (some (D e)) := by rw [hsh]; rfl
      simpa using this
    obtain ⟨t2, m1, m2, m3, m4⟩ := ih (tn := t1) (i := i + 1) k3 (fun x hx => hS x (by simp [hx])) (by
      rw [← List.drop_drop, hsh]; rfl)
    refine ⟨t2, ?_, m2.trans k2, m3, fun x => ?_⟩
    · rw [addNodeEdges, dimAt, hi]
      dsimp only
      rw [k1]
      exact m1
    · rw [m4, k4, List.mem_cons, or_assoc]

theorem mem_foldl_set {l : List (Nm × Option Nat)} {d : Dict Nm (Option Nat)} {p : Nm × Option Nat}
    (h : p ∈ l.foldl (fun d p => d.set p.1 p.2) d) : p ∈ d ∨ p ∈ l := by
  induction l generalizing d with
  | nil => exact Or.inl h
  | cons q l ih =>
    rw [List.foldl_cons] at h
    rcases ih h with h | h
    · rcases Dict.mem_of_mem_set h with h | h
      · exact Or.inr (by simp [h])
      · exact Or.inl h
    · exact Or.inr (by simp [h])

theorem TN.openAll_total {tn : TN τ} {es : List Nm} (h : ∀ e ∈ es, e ∈ tn.edges.keys) :
    ∃ tn', tn.openAll es = (tn', .ok ()) := by
  unfold openAll
  induction es generalizing tn with
  | nil => exact ⟨tn, rfl⟩
  | cons e es ih =>
    obtain ⟨t2, m1⟩ := ih (tn := { tn with openE := tn.openE ++ [e] }) fun x hx => h x (by simp [hx])
    refine ⟨t2, ?_⟩
    rw [forLoop]
    unfold openEdge
    rw [if_pos (Dict.has_iff.2 (h e (by simp)))]
    exact m1

/-- `add_node` succeeds when the dimensions of the tensor fit. -/
theorem TN.addNode_total_gen [HasShape τ] {tn : TN τ} {name : Option Nm} {ident : Nm} {edges : Option (List Nm)}
    {es : List Nm} {fr : Bool} {t : τ} {D : Nm → Nat} {isOpen : Bool} (hn : tn.nameTaken name = false)
    (hl : newLegs edges (HasShape.shape t) = some (es, fr)) (hs : HasShape.shape t = some ((es.map D).map some))
    (hf : tn.Fits D es) :
    ∃ tn', tn.addNode name ident edges t isOpen = (tn', .ok (name.getD ident)) := by
  unfold addNode
  dsimp only
  rw [if_neg (by simp [hn]), hl, hs]
  dsimp only
  generalize hnm : name.getD ident = n
  obtain ⟨t1, k1, k2, k3, k4⟩ := addNodeEdges_total (tn := tn.putNode n es fr) (D := D) (S := es) (i := 0)
    (sh := (es.map D).map some) hf (fun _ h => h) rfl
  rw [k1]
  dsimp only
  have hget : t1.nodes.get? n = some { legs := es, ten := (tn.nodes.get? n).bind NodeRec.ten, frozen := fr } := by
    rw [k2]; unfold putNode; dsimp only; rw [Dict.get?_set, if_pos rfl]
  unfold updateNode
  dsimp only
  rw [hget]
  dsimp only
  rw [hs]
  simp only [legDims]
  rw [if_pos (by simp)]
  dsimp only
  obtain ⟨t2, m1, m2, m3, m4⟩ := updateDimension_total (D := D) (S := es)
    (tn := { t1 with nodes := t1.nodes.set n { legs := es, ten := some t, frozen := fr },
                     adj := addAdjs t1.adj (es.map fun e => (n, e)) })
    (l := (es.zip ((es.map D).map some)).foldl (fun d p => d.set p.1 p.2) []) k3 (fun p hp => by
      rcases mem_foldl_set hp with h | h
      · simp at h
      · have h1 : p.1 ∈ es := (List.of_mem_zip h).1
        refine ⟨h1, (k4 _).2 (Or.inr h1), ?_⟩
        rw [List.map_map, ← List.map_id es, List.map_map, List.zip_map'] at h
        obtain ⟨x, _, rfl⟩ := List.mem_map.1 h
        rfl)
  rw [m1]
  dsimp only
  cases isOpen with
  | false => exact ⟨t2, rfl⟩
  | true =>
    obtain ⟨t3, q1⟩ := openAll_total (tn := t2) (es := es) (fun e he => by rw [m4]; exact (k4 e).2 (Or.inr he))
    rw [if_pos rfl, q1]
    exact ⟨t3, rfl⟩

/-- `add_node` with a new name succeeds when the dimensions of the tensor fit. -/
theorem TN.addNode_total [HasShape τ] {tn : TN τ} {n i : Nm} {es : List Nm} {t : τ} {D : Nm → Nat} {isOpen : Bool}
    (hn : n ∉ tn.nodes.keys) (hs : HasShape.shape t = some ((es.map D).map some)) (hf : tn.Fits D es) :
    ∃ tn', tn.addNode (some n) i (some es) t isOpen = (tn', .ok n) :=
  TN.addNode_total_gen (fr := false) (name := some n) (Dict.has_eq_false.2 hn) rfl hs hf

end Verif
