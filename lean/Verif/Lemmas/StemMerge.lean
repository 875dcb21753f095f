import Verif.Lemmas.StemDig
/-!
# Merging branches gives a tree with the same names

Used for C60: `merge_nodes` as a whole.
-/

namespace Verif
open PTree

theorem digOuts_spec {src : Int} {last : PTree} {ns : List Nm} : ∀ {d d' : Dict Nm Int} {g g' : Dig}, digOuts src last ns d g = some (d', g') →
    g'.names = g.names ∧ (∀ e ∈ g'.edges, e ∈ g.edges ∨ e.1 = src ∧ src ∈ g'.nodes.keys ∧ ∃ n, (n, e.2) ∈ d) ∧ (∀ p ∈ d', p ∈ d) ∧
    (g'.nodes = g.nodes ∨ src ∉ g.nodes.keys ∧ g'.nodes = g.nodes ++ [(src, last)]) := by
  induction ns with
  | nil =>
    intro d d' g g' h
    simp only [digOuts, Option.some.injEq, Prod.mk.injEq] at h
    obtain ⟨rfl, rfl⟩ := h
    exact ⟨rfl, fun e he => .inl he, fun _ hp => hp, .inl rfl⟩
  | cons n ns ih =>
    intro d d' g g' h
    rw [digOuts] at h
    split at h
    · simp at h
    rename_i x hx
    obtain ⟨h1, h2, h4, h3⟩ := ih h
    have hdel : ∀ p ∈ d.del n, p ∈ d := fun p hp => (List.mem_filter.1 hp).1
    refine ⟨h1, fun e he => ?_, fun p hp => hdel p (h4 p hp), ?_⟩
    · rcases h2 e he with h2 | ⟨h2, h5, m, h6⟩
      · rcases List.mem_append.1 h2 with h2 | h2
        · exact .inl h2
        · refine .inr ⟨by rw [List.mem_singleton.1 h2], ?_, n, by rw [List.mem_singleton.1 h2]; exact Dict.mem_of_get? hx⟩
          dsimp only at h3
          rcases h3 with h3 | ⟨h3, _⟩
          · rw [h3]
            split
            · assumption
            · simp [Dict.keys]
          · exfalso
            refine h3 ?_
            split
            · assumption
            · simp [Dict.keys]
      · exact .inr ⟨h2, h5, m, hdel _ h6⟩
    · dsimp only at h3
      split at h3
      · exact h3
      · rename_i hs
        rcases h3 with h3 | ⟨h3, _⟩
        · exact .inr ⟨hs, h3⟩
        · exact absurd (by simp [Dict.keys]) h3

theorem mem_set_snd {d : Dict Nm Int} {n : Nm} {x : Int} {p : Nm × Int} (h : p ∈ d.set n x) : p.2 = x ∨ p ∈ d := by
  induction d with
  | nil =>
    left
    rw [Dict.set, List.mem_singleton] at h
    rw [h]
  | cons q d ih =>
    rw [Dict.set] at h
    split at h
    · rcases List.mem_cons.1 h with h | h
      · exact .inl (by rw [h])
      · exact .inr (List.mem_cons_of_mem _ h)
    · rcases List.mem_cons.1 h with h | h
      · exact .inr (by rw [h]; exact List.mem_cons_self)
      · exact (ih h).imp id (List.mem_cons_of_mem _)

theorem mem_foldl_set_snd {P : Int → Prop} {x : Int} (hx : P x) {ns : List Nm} : ∀ {d : Dict Nm Int}, (∀ p ∈ d, P p.2) →
    ∀ p ∈ ns.foldl (fun d n => d.set n x) d, P p.2 := by
  induction ns with
  | nil => exact fun h => h
  | cons n ns ih =>
    intro d h
    refine ih fun p hp => ?_
    rcases mem_set_snd hp with h1 | h1
    · rw [h1]; exact hx
    · exact h p h1

/-- The state of the loop: the branches so far, and the vertex −1 or not. -/
structure LoopInv (h last : PTree) (bs : List PTree) (i : Nat) (names : List Nm) (d : Dict Nm Int) (g : Dig) : Prop where
  names : g.names = names
  src : ∀ e ∈ g.edges, e.1 ≠ 0
  ends : ∀ e ∈ g.edges, e.1 ∈ g.nodes.keys ∧ e.2 ∈ g.nodes.keys
  vals : ∀ p ∈ d, p.2 ∈ g.nodes.keys
  nodes : ∃ rest : Dict Int PTree, g.nodes = (0, h) :: rest ∧ rest.keys.Nodup ∧ (∀ k ∈ rest.keys, k = -1 ∨ 2 ≤ k ∧ k ≤ i) ∧
    (-1 ∉ rest.keys ∧ rest.map (·.2) = bs ∨ rest.get? (-1) = some last ∧ (rest.map (·.2)).Perm (last :: bs))

theorem LoopInv.loop {h last : PTree} {ll : Nat} {names : List Nm} {es : List Br} : ∀ {bs : List PTree} {i : Nat} {d d' : Dict Nm Int} {g g' : Dig}, 1 ≤ i →
    LoopInv h last bs i names d g → digLoop ll last i es d g = some (d', g') →
    LoopInv h last (bs ++ es.map Br.branch) (i + es.length) names d' g' := by
  induction es with
  | nil =>
    intro bs i d d' g g' _ hI hl
    simp only [digLoop, Option.some.injEq, Prod.mk.injEq] at hl
    obtain ⟨rfl, rfl⟩ := hl
    simpa using hI
  | cons e es ih =>
    intro bs i d d' g g' hi hI hl
    rw [digLoop] at hl
    split at hl
    · simp at hl
    rename_i d1 g1 hd
    obtain ⟨k1, k2, k5, k3⟩ := digOuts_spec hd
    obtain ⟨rest, r1, r2, r3, r4⟩ := hI.nodes
    have hkey : ((i : Int) + 1) ∉ rest.keys := by
      intro hc
      rcases r3 _ hc with hc | hc <;> omega
    have hap : Dict.keys (rest ++ [((i : Int) + 1, e.branch)] : Dict Int PTree) = rest.keys ++ [(i : Int) + 1] := by simp [Dict.keys]
    have hget : ∀ (d : Dict Int PTree) (k : Int) (t : PTree), k ≠ -1 → Dict.get? (d ++ [(k, t)] : Dict Int PTree) (-1) = d.get? (-1) := by
      intro d k t hk
      induction d with
      | nil => rw [List.nil_append, Dict.get?_cons, if_neg hk]
      | cons p d ih => rw [List.cons_append, Dict.get?_cons, Dict.get?_cons, ih]
    have hget2 : ∀ (d : Dict Int PTree) (t : PTree), -1 ∉ d.keys → Dict.get? (d ++ [(-1, t)] : Dict Int PTree) (-1) = some t := by
      intro d t hk
      induction d with
      | nil => rw [List.nil_append, Dict.get?_cons, if_pos rfl]
      | cons p d ih =>
        have hk' : (-1 : Int) ≠ p.1 ∧ (-1 : Int) ∉ Dict.keys d := by
          simpa [Dict.keys] using hk
        rw [List.cons_append, Dict.get?_cons, if_neg (Ne.symm hk'.1), ih hk'.2]
    have hne : ((i : Int) + 1) ≠ -1 := by omega
    have hsub : ∀ x, x ∈ g.nodes.keys ∨ x = (i : Int) + 1 → x ∈ g1.nodes.keys := by
      intro x hx
      have hx' : x ∈ Dict.keys (g.nodes ++ [((i : Int) + 1, e.branch)]) := by
        rcases hx with hx | hx
        · exact List.mem_map.2 (by
            obtain ⟨p, hp, hp'⟩ := List.mem_map.1 hx
            exact ⟨p, List.mem_append_left _ hp, hp'⟩)
        · rw [hx]
          simp [Dict.keys]
      rcases k3 with k3 | ⟨_, k3⟩
      · rw [k3]
        exact hx'
      · rw [k3]
        show x ∈ List.map _ _
        rw [List.map_append]
        exact List.mem_append_left _ hx'
    have hstep : LoopInv h last (bs ++ [e.branch]) (i + 1) names (e.both.foldl (fun d n => d.set n ((i : Int) + 1)) d1) g1 := by
      refine ⟨k1.trans hI.names, fun x hx => ?_, fun x hx => ?_, ?_, ?_⟩
      · rcases k2 x hx with hx | hx
        · exact hI.src x hx
        · rw [hx.1]
          split <;> omega
      · rcases k2 x hx with hx | ⟨hx, hx1, m, hx2⟩
        · exact ⟨hsub _ (.inl (hI.ends x hx).1), hsub _ (.inl (hI.ends x hx).2)⟩
        · exact ⟨by rw [hx]; exact hx1, hsub _ (.inl (hI.vals _ hx2))⟩
      · exact mem_foldl_set_snd (P := fun x => x ∈ g1.nodes.keys) (hsub _ (.inr rfl)) fun p hp => hsub _ (.inl (hI.vals _ (k5 p hp)))
      · have hbase : ∃ rest' : Dict Int PTree, g.nodes ++ [((i : Int) + 1, e.branch)] = (0, h) :: rest' ∧ rest'.keys.Nodup ∧
            (∀ k ∈ rest'.keys, k = -1 ∨ 2 ≤ k ∧ k ≤ ((i + 1 : Nat) : Int)) ∧
            (-1 ∉ rest'.keys ∧ rest'.map (·.2) = bs ++ [e.branch] ∨
              rest'.get? (-1) = some last ∧ (rest'.map (·.2)).Perm (last :: (bs ++ [e.branch]))) := by
          refine ⟨rest ++ [((i : Int) + 1, e.branch)], by rw [r1]; rfl, ?_, ?_, ?_⟩
          · rw [hap]
            exact List.nodup_append.2 ⟨r2, by simp, by
              intro a ha b hb
              rw [List.mem_singleton.1 hb]
              rintro rfl
              exact hkey ha⟩
          · intro k hk
            rw [hap, List.mem_append, List.mem_singleton] at hk
            rcases hk with hk | hk
            · rcases r3 k hk with h | h
              · exact .inl h
              · exact .inr ⟨h.1, by push_cast; omega⟩
            · exact .inr ⟨by omega, by push_cast; omega⟩
          · rcases r4 with ⟨r4, r5⟩ | ⟨r4, r5⟩
            · left
              refine ⟨?_, by rw [List.map_append, r5]; rfl⟩
              rw [hap, List.mem_append, List.mem_singleton]
              rintro (hc | hc)
              · exact r4 hc
              · exact hne hc.symm
            · right
              refine ⟨by rw [hget _ _ _ hne, r4], ?_⟩
              rw [List.map_append, ← List.cons_append]
              exact r5.append_right _
        rcases k3 with k3 | ⟨k3, k4⟩
        · rw [k3]
          exact hbase
        · obtain ⟨rest', b1, b2, b3, b4⟩ := hbase
          have hsrc : (if i + 1 < ll then (i : Int) + 1 else -1) = -1 := by
            split
            · rename_i hlt
              rw [if_pos hlt] at k3
              exact absurd (by simp [Dict.keys]) k3
            · rfl
          rw [hsrc] at k3 k4
          have hno : -1 ∉ rest'.keys := by
            intro hc
            refine k3 ?_
            show -1 ∈ Dict.keys (g.nodes ++ [((i : Int) + 1, e.branch)])
            rw [b1]
            exact List.mem_cons_of_mem _ hc
          refine ⟨rest' ++ [(-1, last)], ?_, ?_, ?_, ?_⟩
          · rw [k4]
            show g.nodes ++ [((i : Int) + 1, e.branch)] ++ [(-1, last)] = _
            rw [b1]
            rfl
          · have : Dict.keys (rest' ++ [(-1, last)] : Dict Int PTree) = rest'.keys ++ [-1] := by simp [Dict.keys]
            rw [this]
            exact List.nodup_append.2 ⟨b2, by simp, by
              intro a ha b hb
              rw [List.mem_singleton.1 hb]
              rintro rfl
              exact hno ha⟩
          · intro k hk
            have : Dict.keys (rest' ++ [(-1, last)] : Dict Int PTree) = rest'.keys ++ [-1] := by simp [Dict.keys]
            rw [this, List.mem_append, List.mem_singleton] at hk
            rcases hk with hk | hk
            · exact b3 k hk
            · exact .inl hk
          · right
            refine ⟨hget2 _ _ hno, ?_⟩
            rcases b4 with ⟨_, b5⟩ | ⟨b4, _⟩
            · rw [List.map_append, b5]
              exact List.perm_append_singleton last _
            · exact absurd (Dict.mem_keys_of_get? b4) hno
    have := ih (by omega) hstep hl
    rw [List.append_assoc] at this
    have h2 : i + 1 + es.length = i + (e :: es).length := by rw [List.length_cons]; omega
    rw [h2] at this
    exact this

/-- contraction_tree.py:140-164: the graph has what the invariant says. -/
theorem toDig_inv {c : Chain} {g : Dig} (h : toDig c = some (some g)) :
    DigInv ((c.tail.map fun e => e.branch.lv).sum + (lastStem c.head c.tail).lv)
      ((c.tail.map fun e => e.branch.inn).sum + (c.tail.map fun e => e.stem.name : Multiset Nm) + (lastStem c.head c.tail).inn)
      (lastStem c.head c.tail).name g ∧ 2 < c.tail.length := by
  unfold toDig at h
  split at h
  · simp at h
  rename_i l hl
  split at h
  · simp at h
  rename_i hlen
  split at h
  · simp at h
  rename_i d g0 hd
  split at h
  swap
  · simp at h
  rename_i hm
  simp only [Option.some.injEq] at h
  subst h
  have hlast : lastStem c.head c.tail = l.stem := by simp [lastStem, hl]
  have hI0 : LoopInv c.head l.stem [] 1 (c.tail.map fun e => e.stem.name) (c.keys.foldl (fun d n => d.set n 0) []) ⟨[(0, c.head)], [], c.tail.map fun e => e.stem.name⟩ :=
    ⟨rfl, by simp, by simp, mem_foldl_set_snd (P := fun x => x ∈ Dict.keys [((0 : Int), c.head)]) (by simp [Dict.keys]) (by simp), [], rfl, by simp [Dict.keys], by simp [Dict.keys], .inl ⟨by simp [Dict.keys], rfl⟩⟩
  have hI := LoopInv.loop (le_refl 1) hI0 hd
  obtain ⟨rest, r1, r2, r3, r4⟩ := hI.nodes
  have h0 : (0 : Int) ∉ rest.keys := by
    intro hc
    rcases r3 _ hc with hc | hc <;> omega
  have hk : g0.nodes.keys = 0 :: rest.keys := by rw [r1]; rfl
  have hr : rest.get? (-1) = some l.stem ∧ (rest.map (·.2)).Perm (l.stem :: c.tail.map Br.branch) := by
    rcases r4 with ⟨r4, _⟩ | r4
    · rw [hk] at hm
      rcases List.mem_cons.1 hm with hm | hm
      · exact absurd hm (by decide)
      · exact absurd hm r4
    · simpa using r4
  have hsum : ∀ f : PTree → Multiset Nm, dsum f rest = (c.tail.map fun e => f e.branch).sum + f l.stem := by
    intro f
    have := (hr.2.map f).sum_eq
    rw [List.map_cons, List.sum_cons, List.map_map, List.map_map] at this
    rw [add_comm]
    exact this
  refine ⟨⟨?_, ⟨c.head, rest, r1, ?_, ?_, ?_⟩, ?_, ?_, ?_, ?_⟩, by omega⟩
  · show g0.nodes.keys.Nodup
    rw [hk]
    exact List.nodup_cons.2 ⟨h0, r2⟩
  · rw [hsum, hlast]
  · show dsum PTree.inn rest + (g0.names : Multiset Nm) = _
    rw [hsum, hlast, hI.names]
    abel
  · have := hr.2.length_eq
    show rest.length = g0.names.length + 1
    rw [hI.names]
    simpa using this
  · intro e he
    rcases List.mem_append.1 he with he | he
    · exact hI.src e he
    · obtain ⟨p, _, rfl⟩ := List.mem_map.1 he
      exact (by decide : (-1 : Int) ≠ 0)
  · intro e he
    rcases List.mem_append.1 he with he | he
    · exact hI.ends e he
    · obtain ⟨p, hp, rfl⟩ := List.mem_map.1 he
      exact ⟨hm, hI.vals p hp⟩
  · intro _
    show g0.names.getLast? = _
    rw [hI.names, List.getLast?_map, hl, hlast]
    rfl
  · intro t _ hn
    have hn : g0.names = [] := hn
    rw [hI.names, List.map_eq_nil_iff] at hn
    rw [hn] at hlen
    simp at hlen

theorem digOuts_mem {src : Int} {last : PTree} {ns : List Nm} {d d' : Dict Nm Int} {g g' : Dig} (h : digOuts src last ns d g = some (d', g')) (hne : ns ≠ []) :
    src ∈ g'.nodes.keys := by
  cases ns with
  | nil => exact absurd rfl hne
  | cons n ns =>
    rw [digOuts] at h
    split at h
    · simp at h
    obtain ⟨_, _, _, h3⟩ := digOuts_spec h
    dsimp only at h3
    have hin : src ∈ Dict.keys (if src ∈ g.nodes.keys then g.nodes else g.nodes ++ [(src, last)]) := by
      split
      · assumption
      · simp [Dict.keys]
    rcases h3 with h3 | ⟨h3, _⟩
    · rw [h3]
      exact hin
    · exact absurd hin h3

theorem digOuts_mono {src : Int} {last : PTree} {ns : List Nm} {d d' : Dict Nm Int} {g g' : Dig} (h : digOuts src last ns d g = some (d', g')) {x : Int}
    (hx : x ∈ g.nodes.keys) : x ∈ g'.nodes.keys := by
  obtain ⟨_, _, _, h3 | ⟨_, h3⟩⟩ := digOuts_spec h
  · rw [h3]; exact hx
  · rw [h3]
    show x ∈ List.map _ _
    rw [List.map_append]
    exact List.mem_append_left _ hx

theorem digLoop_mono {ll : Nat} {last : PTree} {es : List Br} : ∀ {i : Nat} {d d' : Dict Nm Int} {g g' : Dig}, digLoop ll last i es d g = some (d', g') →
    ∀ {x : Int}, x ∈ g.nodes.keys → x ∈ g'.nodes.keys := by
  induction es with
  | nil =>
    intro i d d' g g' h x hx
    simp only [digLoop, Option.some.injEq, Prod.mk.injEq] at h
    exact h.2 ▸ hx
  | cons e es ih =>
    intro i d d' g g' h x hx
    rw [digLoop] at h
    split at h
    · simp at h
    rename_i d1 g1 hd
    refine ih h (digOuts_mono hd ?_)
    show x ∈ List.map _ _
    rw [List.map_append]
    exact List.mem_append_left _ hx

/-- The vertex −1 is missing only if the last two branches have no indices the rest of the stem has not. -/
theorem digLoop_last {ll : Nat} {last : PTree} {es : List Br} : ∀ {i : Nat} {d d' : Dict Nm Int} {g g' : Dig}, digLoop ll last i es d g = some (d', g') →
    -1 ∉ g'.nodes.keys → ∀ j e, es[j]? = some e → ll ≤ i + j + 1 → e.out = [] := by
  induction es with
  | nil => intro i d d' g g' _ _ j e he; simp at he
  | cons e es ih =>
    intro i d d' g g' h hn j e' he hj
    rw [digLoop] at h
    split at h
    · simp at h
    rename_i d1 g1 hd
    cases j with
    | zero =>
      simp only [List.getElem?_cons_zero, Option.some.injEq] at he
      subst he
      by_contra hne
      rw [if_neg (by omega)] at hd
      exact hn (digLoop_mono h (digOuts_mem hd hne))
    | succ j => exact ih h hn j e' (by simpa using he) (by omega)

theorem toDig_none {c : Chain} (h : toDig c = none) : ∀ j e, c.tail[j]? = some e → c.tail.length ≤ j + 2 → e.out = [] := by
  unfold toDig at h
  split at h
  · simp at h
  split at h
  · simp at h
  split at h
  · simp at h
  rename_i d g hd
  split at h
  · simp at h
  rename_i hn
  intro j e he hj
  exact digLoop_last hd hn j e he (by omega)

/-- contraction_tree.py:198-280: what merging does with a chain. -/
theorem mergeChain_spec {mt : List ((Int × Int) × Nat) → List (Int × Int)} (hmt : MatchOK mt) {width k : Nat} {c : Chain} (hc : Chained c.head c.tail)
    {f : PTree → PTree} (hf : mergeChain mt width k c = some f) :
    f = id ∨ ∃ new n s a0 b0 a b, c.head = node new n s a0 b0 ∧ f = setChildren n a b ∧ a.lv + b.lv = a0.lv + b0.lv ∧ a.inn + b.inn = a0.inn + b0.inn := by
  unfold mergeChain at hf
  split at hf
  · simp at hf
  · left
    exact (Option.some.inj hf).symm
  rename_i g hg
  split at hf
  · simp at hf
  rename_i g1 hg1
  obtain ⟨hI, hlen⟩ := toDig_inv hg
  split at hf
  swap
  · simp at hf
  rename_i new' n' s' a b hw
  obtain ⟨w1, w2, w3⟩ := (hI.rounds hmt hg1).whole hw
  right
  have hl := hc.lv
  have hi := hc.inn
  generalize c.head = hd at *
  generalize c.tail = tl at *
  cases hc with
  | nil => simp at hlen
  | @cons new n s e es hes =>
    refine ⟨new, n, s, e.branch, e.stem, a, b, rfl, (Option.some.inj hf).symm, ?_, ?_⟩
    · rw [PTree.lv] at w1 hl
      rw [hl, w1]
    · rw [PTree.inn] at w2 hi
      rw [PTree.name] at w3 hi
      rw [← w3] at hi
      rw [add_assoc ({n} : Multiset Nm), add_assoc ({n} : Multiset Nm), add_assoc ({n} : Multiset Nm)] at hi
      have hi := add_left_cancel hi
      rw [← w2, add_comm] at hi
      exact (add_left_cancel hi).symm

/-- contraction_tree.py:198-280: merging a chain fails in two cases only: there is no vertex −1 at the beginning, or it has been merged
into another one. -/
theorem mergeChain_none {mt : List ((Int × Int) × Nat) → List (Int × Int)} (hmt : MatchOK mt) {width k : Nat} {c : Chain}
    (hf : mergeChain mt width k c = none) :
    toDig c = none ∨ ∃ g g', toDig c = some (some g) ∧ g.rounds mt width k (g.nodes.length + 1) = some g' ∧ -1 ∉ g'.nodes.keys := by
  unfold mergeChain at hf
  split at hf
  · exact .inl ‹_›
  · simp at hf
  rename_i g hg
  obtain ⟨hI, hlen⟩ := toDig_inv hg
  obtain ⟨g1, hg1⟩ := hI.rounds_some hmt (width := width) (k := k) (Nat.lt_succ_self g.nodes.length)
  rw [Nat.succ_eq_add_one] at hg1
  refine .inr ⟨g, g1, hg, hg1, fun hm => ?_⟩
  rw [hg1] at hf
  dsimp only at hf
  have hI1 := hI.rounds hmt hg1
  obtain ⟨t, ht⟩ := hI1.whole_some hm
  rw [ht] at hf
  cases t with
  | leaf n s =>
    have := (hI1.whole ht).2.1
    rw [PTree.inn] at this
    have h2 := congrArg Multiset.card this
    simp only [Multiset.card_zero, Multiset.card_add, Multiset.coe_card, List.length_map] at h2
    omega
  | node new n s a b => simp at hf

theorem not_mem_of_nodup {c : List Frame} {t : PTree} (h : (plug c t).nms.Nodup) {n : Nm} (hn : n ∈ t.nms) : n ∉ nmsC c := by
  rw [plug_nms] at h
  exact fun hc => (Multiset.disjoint_left.1 (Multiset.nodup_add.1 h).2.2) hc hn

theorem sib_not_mem {c : List Frame} {f : Frame} {n : Nm} (h : n ∉ nmsC (f :: c)) : n ∉ f.sib.nms := by
  intro hc
  refine h ?_
  simp only [nmsC, List.map_cons, List.sum_cons, Multiset.mem_add]
  exact .inl (.inr hc)

theorem Chained.old {t : PTree} {es : List Br} (h : Chained t es) (ho : t.Old) : ∀ e ∈ es, e.branch.Old ∧ e.stem.Old := by
  induction h with
  | nil => simp
  | cons h ih =>
    intro e he
    rcases List.mem_cons.1 he with rfl | he
    · exact ⟨ho.2.1, ho.2.2⟩
    · exact ih ho.2.2 e he

/-- What `merge_nodes` knows of the tree before the chains are merged: the two chains hang on one node. -/
structure Hung (t t1 : PTree) (p q : Chain) : Prop where
  place : ∃ (C : List Frame) (F : Frame), t1 = plug (F :: C) p.head ∧ F.sib = q.head
  same : Same t t1
  cp : Chained p.head p.tail
  cq : Chained q.head q.tail
  op : p.head.Old
  oq : q.head.Old

/-- contraction_tree.py:184-196: hanging the longer chain elsewhere keeps the names. -/
theorem shift_spec {r t t1 : PTree} {p q p1 q1 : Chain} {C : List Frame} {F : Frame} (ht : t = plug (F :: C) p.head) (hF : F.sib = q.head)
    (hr : r.name = F.name) (hnew : F.new = false) (hn : t.nms.Nodup) (cp : Chained p.head p.tail) (cq : Chained q.head q.tail)
    (op : p.head.Old) (oq : q.head.Old) (h : shiftStem r p q t = some (t1, p1, q1)) : Hung t t1 p1 q1 := by
  unfold shiftStem at h
  have hstay : ∀ {t1 : PTree} {p1 q1 : Chain}, some (t, p, q) = some (t1, p1, q1) → Hung t t1 p1 q1 := by
    intro t1 p1 q1 h
    simp only [Option.some.injEq, Prod.mk.injEq] at h
    obtain ⟨rfl, rfl, rfl⟩ := h
    exact ⟨⟨C, F, ht, hF⟩, Same.refl _, cp, cq, op, oq⟩
  split at h
  swap
  · exact hstay h
  split at h
  · simp at h
  rename_i e1 tail1 hp
  dsimp only at h
  split at h
  swap
  · exact hstay h
  split at h
  · simp at h
  rename_i e2 tail2
  simp only [Option.some.injEq, Prod.mk.injEq] at h
  obtain ⟨rfl, rfl, rfl⟩ := h
  obtain ⟨ph, pk, pt⟩ := p
  obtain ⟨qh, qk, qt⟩ := q
  dsimp only at *
  subst hp
  obtain ⟨Fnew, Fname, Fsubs, Fsib, Fleft⟩ := F
  dsimp only at hF hr hnew
  subst hF hnew
  cases cp with
  | @cons np1 n1 s1 _ _ cp1 =>
  generalize he1 : e1.stem = st1 at *
  obtain ⟨b1, bo1, ou1, st1'⟩ := e1
  dsimp only at he1
  subst he1
  cases cp1 with
  | @cons np2 n2 s2 _ _ cp2 =>
  obtain ⟨b2, bo2, ou2, st2⟩ := e2
  dsimp only at *
  obtain ⟨rfl, ob1, rfl, ob2, os2⟩ := op
  -- the names of the whole tree
  have hnms := hn
  rw [ht, plug_nms] at hnms
  have hall : ({Fname} + Fsib.nms + nmsC C + ({n1} + (b1.nms + ({n2} + (b2.nms + st2.nms))))).Nodup := by
    have : nmsC (⟨false, Fname, Fsubs, Fsib, Fleft⟩ :: C) = {Fname} + Fsib.nms + nmsC C := by simp [nmsC]
    rw [← this, ← nms_node (new := false) (s := s2), ← nms_node (new := false) (s := s1)]
    exact hnms
  have hdis := hall
  rw [Multiset.nodup_add, Multiset.nodup_add, Multiset.nodup_add] at hdis
  simp only [Multiset.nodup_add, Multiset.disjoint_add_left, Multiset.disjoint_add_right, Multiset.disjoint_singleton, Multiset.singleton_disjoint,
    Multiset.mem_singleton, Multiset.mem_add, not_or] at hdis
  have hdis : Fname ∉ nmsC C ∧ n2 ∉ nmsC C ∧ n2 ≠ Fname ∧ n2 ≠ n1 ∧ n2 ∉ b2.nms ∧ n2 ∉ b1.nms ∧ n2 ∉ st2.nms ∧ n2 ∉ Fsib.nms ∧ Fname ∉ st2.nms ∧ Fname ∉ Fsib.nms := by
    clear hstay
    tauto
  obtain ⟨d1, d2, d3, d4, d5, d6, d7, d8, d9, d10⟩ := hdis
  have hF0 : ∀ {x y : PTree}, setChildren Fname x y (plug C (Frame.fill ⟨false, Fname, Fsubs, Fsib, Fleft⟩ (node false n1 s1 b1 (node false n2 s2 b2 st2))))
      = plug C (node false Fname Fsubs x y) := by
    intro x y
    rw [set_plug d1]
    congr 1
    unfold Frame.fill
    split <;> simp [setChildren]
  have hf : (setChildren n2 st2 Fsib) (setChildren Fname b2 (node false n1 s1 b1 (node false n2 s2 b2 st2)) t) =
      plug (⟨false, n2, s2, Fsib, true⟩ :: ⟨false, n1, s1, b1, false⟩ :: ⟨false, Fname, Fsubs, b2, false⟩ :: C) st2 := by
    rw [ht]
    show setChildren n2 st2 Fsib (setChildren Fname _ _ (plug C _)) = _
    rw [hF0, set_plug d2]
    simp only [plug]
    congr 1
    simp only [Frame.fill, if_true, Bool.false_eq_true, if_false]
    rw [setChildren, if_neg (fun h => d3 h.2.symm), set_none (t := b2) d5, setChildren, if_neg (fun h => d4 h.2.symm), set_none (t := b1) d6, setChildren, if_pos ⟨rfl, rfl⟩]
  have hid : ∀ x : PTree, (Fname ∉ x.nms) → n2 ∉ x.nms → (setChildren n2 st2 Fsib) (setChildren Fname b2 (node false n1 s1 b1 (node false n2 s2 b2 st2)) x) = x := by
    intro x h1 h2
    rw [set_none h1, set_none h2]
  have hup : Chain.upd (fun x => (setChildren n2 st2 Fsib) (setChildren Fname b2 (node false n1 s1 b1 (node false n2 s2 b2 st2)) x))
      ⟨st2, setMinus (setMinus (pk ++ bo1) ou1 ++ bo2) ou2, tail2⟩ = ⟨st2, setMinus (setMinus (pk ++ bo1) ou1 ++ bo2) ou2, tail2⟩ := by
    refine Chain.upd_self cp2 fun x hx => hid x (fun hc => ?_) fun hc => ?_
    · exact d9 (Multiset.mem_of_le hx hc)
    · exact d7 (Multiset.mem_of_le hx hc)
  have hup2 : Chain.upd (fun x => (setChildren n2 st2 Fsib) (setChildren Fname b2 (node false n1 s1 b1 (node false n2 s2 b2 st2)) x)) ⟨Fsib, qk, qt⟩ = ⟨Fsib, qk, qt⟩ := by
    refine Chain.upd_self cq fun x hx => hid x (fun hc => ?_) fun hc => ?_
    · exact d10 (Multiset.mem_of_le hx hc)
    · exact d8 (Multiset.mem_of_le hx hc)
  rw [show (node false n2 s2 b2 st2).name = n2 from rfl, hr, hup, hup2, hf]
  refine ⟨⟨_, _, rfl, rfl⟩, ⟨?_, ?_, ?_⟩, cp2, cq, os2, oq⟩
  · rw [ht, plug_lv, plug_lv]
    simp only [lvC, List.map_cons, List.sum_cons, PTree.lv]
    abel
  · rw [ht, plug_inn, plug_inn]
    simp only [innC, List.map_cons, List.sum_cons, PTree.inn]
    abel
  · rw [ht]
    simp only [plug]
    refine plug_name C ?_
    rw [fill_name, fill_name]

/-- Merging a chain in its place. -/
theorem merge_place {mt : List ((Int × Int) × Nat) → List (Int × Int)} (hmt : MatchOK mt) {width k : Nat} {p : Chain} (cp : Chained p.head p.tail)
    (op : p.head.Old) {f : PTree → PTree} (hf : mergeChain mt width k p = some f) {C : List Frame} (hn : (plug C p.head).nms.Nodup) :
    ∃ p', f (plug C p.head) = plug C p' ∧ Same p.head p' ∧ ∀ x : PTree, (∀ m ∈ x.nms, m ∈ nmsC C) → f x = x := by
  rcases mergeChain_spec hmt cp hf with rfl | ⟨new, n, s, a0, b0, a, b, h1, rfl, h3, h4⟩
  · exact ⟨p.head, rfl, Same.refl _, fun _ _ => rfl⟩
  · have hmem : n ∈ p.head.nms := by
      have := p.head.name_mem
      rw [h1] at this ⊢
      exact this
    have hnot := not_mem_of_nodup hn hmem
    rw [h1] at op ⊢
    obtain ⟨rfl, _⟩ := op
    refine ⟨node false n s a b, ?_, ⟨?_, ?_, rfl⟩, ?_⟩
    · rw [set_plug hnot, setChildren, if_pos ⟨rfl, rfl⟩]
    · rw [PTree.lv, PTree.lv, h3]
    · rw [PTree.inn, PTree.inn, h4]
    · intro x hx
      exact set_none fun hc => hnot (hx _ hc)

/-- The stem is a line on both sides. -/
def StemLinear (T : Nat) (t : PTree) : Prop := ∀ r c1 c2, t.info T = some (r, c1, c2) → c1.head.Linear T ∧ c2.head.Linear T

/-- contraction_tree.py:176-280: merging keeps the names. -/
theorem mergeNodes_same {mt : List ((Int × Int) × Nat) → List (Int × Int)} (hmt : MatchOK mt) {T width k : Nat} {t t' : PTree} (hlin : StemLinear T t)
    (ho : t.Old) (hn : t.nms.Nodup) (h : mergeNodes mt T width k t = some t') : Same t t' := by
  unfold mergeNodes at h
  split at h
  · exact (Option.some.inj h) ▸ Same.refl t
  rename_i r c1 c2 hi
  obtain ⟨l1, l2⟩ := hlin _ _ _ hi
  obtain ⟨C, new, n, s, a, b, ht, hr, hc1, hc2⟩ := info_spec hi
  have ho' : (node new n s a b).Old := plug_old (c := C) (by rw [← hr, ← ht]; exact ho)
  have ch1 : Chained c1.head c1.tail := by
    rw [hc1] at l1 ⊢
    exact l1.chained
  have ch2 : Chained c2.head c2.tail := by
    rw [hc2] at l2 ⊢
    exact l2.chained
  have e1 : c1.head = a := by rw [hc1]
  have e2 : c2.head = b := by rw [hc2]
  have hmain : ∀ {p q : Chain} {F : Frame}, t = plug (F :: C) p.head → F.sib = q.head → r.name = F.name → F.new = false → Chained p.head p.tail → Chained q.head q.tail →
      p.head.Old → q.head.Old → ∀ {t1 p1 q1}, shiftStem r p q t = some (t1, p1, q1) → ∀ {f}, mergeChain mt width k p1 = some f → ∀ {f'},
        mergeChain mt width k (q1.upd f) = some f' → Same t (f' (f t1)) := by
    intro p q F k1 k2 k3 k4 k5 k6 k7 k8 t1 p1 q1 hs f hf f' hf'
    have hH := shift_spec k1 k2 k3 k4 hn k5 k6 k7 k8 hs
    obtain ⟨C1, F1, j1, j2⟩ := hH.place
    have hn1 : t1.nms.Nodup := by rw [hH.same.nms]; exact hn
    rw [j1] at hn1
    obtain ⟨p', m1, m2, m3⟩ := merge_place hmt hH.cp hH.op hf hn1
    have hq : q1.upd f = q1 := by
      refine Chain.upd_self hH.cq fun x hx => m3 x fun m hm => ?_
      have := Multiset.mem_of_le hx hm
      rw [← j2] at this
      simp only [nmsC, List.map_cons, List.sum_cons, Multiset.mem_add]
      exact .inl (.inr this)
    rw [hq] at hf'
    have hs1 : Same t1 (f t1) := by
      rw [j1, m1]
      exact m2.plug _
    have hflip : plug (F1 :: C1) p' = plug ({ F1 with sib := p', left := !F1.left } :: C1) q1.head := by
      simp only [plug]
      congr 1
      unfold Frame.fill
      dsimp only
      rw [j2]
      cases F1.left <;> rfl
    have hft : f t1 = plug ({ F1 with sib := p', left := !F1.left } :: C1) q1.head := by rw [j1, m1, hflip]
    have hn2 : (f t1).nms.Nodup := by rw [hs1.nms, hH.same.nms]; exact hn
    rw [hft] at hn2
    obtain ⟨q', m4, m5, _⟩ := merge_place hmt hH.cq hH.oq hf' hn2
    refine (hH.same.trans hs1).trans ?_
    rw [hft, m4]
    exact m5.plug _
  split at h
  · simp at h
  rename_i t1 p1 q1 hs
  split at h
  · simp at h
  rename_i f hf
  split at h
  · simp at h
  rename_i f' hf'
  rw [Option.some.injEq] at h
  subst h
  split at hs
  · exact hmain (F := ⟨new, n, s, a, false⟩) (by rw [ht, hr, e2]; rfl) e1.symm (by rw [hr]; rfl) ho'.1 ch2 ch1 (by rw [e2]; exact ho'.2.2)
      (by rw [e1]; exact ho'.2.1) hs hf hf'
  · exact hmain (F := ⟨new, n, s, b, true⟩) (by rw [ht, hr, e1]; rfl) e2.symm (by rw [hr]; rfl) ho'.1 ch1 ch2 (by rw [e1]; exact ho'.2.1)
      (by rw [e2]; exact ho'.2.2) hs hf hf'

end Verif
