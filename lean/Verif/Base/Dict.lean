import Mathlib.Data.List.Basic
import Mathlib.Data.List.Nodup
/-!
# Python dictionaries

A Python `dict` (insertion ordered) as an association list.
-/

set_option linter.unusedSectionVars false

namespace Verif

variable {K V : Type} [DecidableEq K]

/-- Association list in insertion order. -/
abbrev Dict (K V : Type) := List (K × V)

namespace Dict

/-- `d.get(k)` -/
def get? : Dict K V → K → Option V
  | [], _ => none
  | (k', v) :: d, k => if k' = k then some v else get? d k

/-- `list(d)` -/
def keys (d : Dict K V) : List K := d.map Prod.fst

/-- `k in d` -/
def has (d : Dict K V) (k : K) : Bool := (d.get? k).isSome

/-- `d[k] = v`: in place if the key exists, else appended. -/
def set : Dict K V → K → V → Dict K V
  | [], k, v => [(k, v)]
  | (k', v') :: d, k, v => if k' = k then (k, v) :: d else (k', v') :: set d k v

/-- `del d[k]` (no effect if absent). -/
def del (d : Dict K V) (k : K) : Dict K V := d.filter fun p => p.1 ≠ k

/-- Apply a function to the value stored under a key. -/
def modify (d : Dict K V) (k : K) (f : V → V) : Dict K V :=
  d.map fun p => if p.1 = k then (p.1, f p.2) else p

/-- Apply a function to the values of the keys satisfying a condition. -/
def mapIf (d : Dict K V) (c : K → Bool) (g : V → V) : Dict K V :=
  d.map fun p => (p.1, if c p.1 then g p.2 else p.2)

/-- Keep the entries whose key satisfies a condition. -/
def filterKeys (d : Dict K V) (c : K → Bool) : Dict K V := d.filter fun p => c p.1

@[simp] theorem get?_nil (k : K) : get? ([] : Dict K V) k = none := rfl

theorem get?_cons (k k' : K) (v : V) (d : Dict K V) :
    get? ((k', v) :: d) k = if k' = k then some v else get? d k := rfl

theorem get?_eq_none {d : Dict K V} {k : K} : d.get? k = none ↔ k ∉ d.keys := by
  induction d with
  | nil => simp [keys]
  | cons p d ih =>
    obtain ⟨k', v⟩ := p
    rw [get?_cons]
    by_cases h : k' = k
    · simp [h, keys]
    · simp only [h, if_false, ih, keys, List.map_cons, List.mem_cons, not_or]
      exact ⟨fun h1 => ⟨fun h2 => h h2.symm, h1⟩, fun h1 => h1.2⟩

theorem has_iff {d : Dict K V} {k : K} : d.has k = true ↔ k ∈ d.keys := by
  rw [has, ← not_iff_not, ← get?_eq_none]
  cases d.get? k <;> simp

theorem has_eq_false {d : Dict K V} {k : K} : d.has k = false ↔ k ∉ d.keys := by
  rw [← has_iff]; simp

theorem get?_isSome {d : Dict K V} {k : K} : (d.get? k).isSome ↔ k ∈ d.keys := has_iff

theorem mem_keys_of_get? {d : Dict K V} {k : K} {v : V} (h : d.get? k = some v) : k ∈ d.keys := by
  rw [← get?_isSome, h]; rfl

theorem exists_get? {d : Dict K V} {k : K} (h : k ∈ d.keys) : ∃ v, d.get? k = some v := by
  rw [← get?_isSome] at h; exact Option.isSome_iff_exists.1 h

theorem mem_of_get? {d : Dict K V} {k : K} {v : V} (h : d.get? k = some v) : (k, v) ∈ d := by
  induction d with
  | nil => simp at h
  | cons p d ih =>
    obtain ⟨k', v'⟩ := p
    rw [get?_cons] at h
    by_cases hk : k' = k
    · rw [if_pos hk] at h; simp at h; subst hk; subst h; simp
    · rw [if_neg hk] at h; exact List.mem_cons_of_mem _ (ih h)

theorem get?_of_mem {d : Dict K V} (hn : d.keys.Nodup) {k : K} {v : V} (h : (k, v) ∈ d) :
    d.get? k = some v := by
  induction d with
  | nil => simp at h
  | cons p d ih =>
    obtain ⟨k', v'⟩ := p
    rw [get?_cons]
    have hn' : k' ∉ keys d ∧ (keys d).Nodup := by simpa [keys] using hn
    rcases List.mem_cons.1 h with h | h
    · simp at h; simp [h.1, h.2]
    · have : k' ≠ k := fun he => hn'.1 (he ▸ List.mem_map_of_mem (f := Prod.fst) h)
      rw [if_neg this]; exact ih hn'.2 h

theorem mem_iff_get? {d : Dict K V} (hn : d.keys.Nodup) {k : K} {v : V} :
    (k, v) ∈ d ↔ d.get? k = some v := ⟨get?_of_mem hn, mem_of_get?⟩

theorem get?_set (d : Dict K V) (k k' : K) (v : V) :
    (d.set k v).get? k' = if k = k' then some v else d.get? k' := by
  induction d with
  | nil => simp [set, get?_cons]
  | cons p d ih =>
    obtain ⟨k1, v1⟩ := p
    unfold set
    by_cases h : k1 = k
    · subst h
      simp only [if_true, get?_cons]
      split <;> rfl
    · simp only [h, if_false, get?_cons, ih]
      by_cases h2 : k1 = k'
      · have : k ≠ k' := fun h3 => h (h2.trans h3.symm)
        simp [h2, this]
      · simp [h2]

theorem keys_set (d : Dict K V) (k : K) (v : V) :
    (d.set k v).keys = if k ∈ d.keys then d.keys else d.keys ++ [k] := by
  induction d with
  | nil => simp [set, keys]
  | cons p d ih =>
    obtain ⟨k1, v1⟩ := p
    unfold set
    by_cases h : k1 = k
    · subst h; simp [keys]
    · have h' : ¬ k = k1 := fun e => h e.symm
      simp only [h, if_false]
      have e1 : keys ((k1, v1) :: set d k v) = k1 :: keys (set d k v) := rfl
      have e2 : keys ((k1, v1) :: d) = k1 :: keys d := rfl
      rw [e1, e2, ih]
      by_cases h2 : k ∈ keys d
      · simp [h2]
      · simp [h2, h']

theorem nodup_keys_set {d : Dict K V} (h : d.keys.Nodup) (k : K) (v : V) : (d.set k v).keys.Nodup := by
  rw [keys_set]
  split
  · exact h
  · next hk => exact List.nodup_append.2 ⟨h, by simp, fun a ha b hb he =>
      hk (by rw [List.mem_singleton.1 hb] at he; exact he ▸ ha)⟩

theorem mem_keys_set {d : Dict K V} {k k' : K} {v : V} :
    k' ∈ (d.set k v).keys ↔ k' = k ∨ k' ∈ d.keys := by
  rw [keys_set]
  split
  · next h => exact ⟨Or.inr, fun h2 => h2.elim (fun e => e ▸ h) id⟩
  · simp [or_comm]

theorem set_eq_append {d : Dict K V} {k : K} (h : k ∉ d.keys) (v : V) : d.set k v = d ++ [(k, v)] := by
  induction d with
  | nil => rfl
  | cons p d ih =>
    obtain ⟨k1, v1⟩ := p
    have h1 : k1 ≠ k := fun e => h (by simp [keys, e])
    have h2 : k ∉ keys d := fun e => h (by simp only [keys, List.map_cons, List.mem_cons]; exact Or.inr e)
    unfold set
    rw [if_neg h1, ih h2]; rfl

theorem get?_del (d : Dict K V) (k k' : K) :
    (d.del k).get? k' = if k' = k then none else d.get? k' := by
  induction d with
  | nil => simp [del]
  | cons p d ih =>
    obtain ⟨k1, v1⟩ := p
    unfold del at *
    rw [List.filter_cons]
    by_cases h : k1 = k
    · subst h
      simp only [ne_eq, not_true_eq_false, decide_false, Bool.false_eq_true, if_false, ih, get?_cons]
      by_cases h2 : k' = k1
      · simp [h2]
      · have : ¬ k1 = k' := fun e => h2 e.symm
        simp [h2, this]
    · simp only [ne_eq, h, not_false_eq_true, decide_true, if_true, get?_cons, ih]
      by_cases h2 : k1 = k'
      · subst h2; simp [h]
      · simp [h2]

theorem keys_del (d : Dict K V) (k : K) : (d.del k).keys = d.keys.filter (· ≠ k) := by
  unfold del keys
  rw [List.filter_map]; rfl

theorem nodup_keys_del {d : Dict K V} (h : d.keys.Nodup) (k : K) : (d.del k).keys.Nodup := by
  rw [keys_del]; exact h.filter _

theorem mem_keys_del {d : Dict K V} {k k' : K} : k' ∈ (d.del k).keys ↔ k' ∈ d.keys ∧ k' ≠ k := by
  rw [keys_del]; simp

theorem keys_modify (d : Dict K V) (k : K) (f : V → V) : (d.modify k f).keys = d.keys := by
  unfold modify keys
  rw [List.map_map]
  refine List.map_congr_left fun p _ => ?_
  simp only [Function.comp]
  split <;> rfl

theorem get?_modify (d : Dict K V) (k k' : K) (f : V → V) :
    (d.modify k f).get? k' = if k' = k then (d.get? k').map f else d.get? k' := by
  induction d with
  | nil => simp [modify]
  | cons p d ih =>
    obtain ⟨k1, v1⟩ := p
    have e : modify ((k1, v1) :: d) k f =
      (if k1 = k then (k1, f v1) else (k1, v1)) :: modify d k f := rfl
    rw [e]
    by_cases h : k1 = k
    · subst h
      rw [if_pos rfl, get?_cons, get?_cons, ih]
      by_cases h2 : k1 = k'
      · simp [h2]
      · have : ¬ k' = k1 := fun e => h2 e.symm
        simp [h2, this]
    · rw [if_neg h, get?_cons, get?_cons, ih]
      by_cases h2 : k1 = k'
      · subst h2; simp [h]
      · simp [h2]

theorem get?_map_val {W : Type} (d : Dict K V) (g : K → V → W) (k : K) :
    get? (d.map fun p => (p.1, g p.1 p.2)) k = (d.get? k).map (g k) := by
  induction d with
  | nil => rfl
  | cons p d ih =>
    obtain ⟨k1, v1⟩ := p
    rw [List.map_cons, get?_cons, get?_cons, ih]
    by_cases h : k1 = k
    · subst h; simp
    · simp [h]

theorem get?_mapIf (d : Dict K V) (c : K → Bool) (g : V → V) (k : K) :
    (d.mapIf c g).get? k = (d.get? k).map fun v => if c k then g v else v :=
  get?_map_val d (fun (k : K) (v : V) => if c k then g v else v) k

theorem keys_mapIf (d : Dict K V) (c : K → Bool) (g : V → V) : (d.mapIf c g).keys = d.keys := by
  unfold keys mapIf
  rw [List.map_map]; rfl

theorem get?_filterKeys (d : Dict K V) (c : K → Bool) (k : K) :
    (d.filterKeys c).get? k = if c k then d.get? k else none := by
  unfold filterKeys
  induction d with
  | nil => simp
  | cons p d ih =>
    obtain ⟨k1, v1⟩ := p
    rw [List.filter_cons]
    by_cases h : c k1
    · simp only [h, if_true, get?_cons, ih]
      by_cases h2 : k1 = k
      · subst h2; simp [h]
      · simp [h2]
    · simp only [h, Bool.false_eq_true, if_false, get?_cons, ih]
      by_cases h2 : k1 = k
      · subst h2; simp [h]
      · simp [h2]

theorem keys_filterKeys (d : Dict K V) (c : K → Bool) : (d.filterKeys c).keys = d.keys.filter c := by
  unfold keys filterKeys
  rw [List.filter_map]; rfl

theorem get?_append (d d' : Dict K V) (k : K) :
    get? (d ++ d') k = (d.get? k).or (d'.get? k) := by
  induction d with
  | nil => simp
  | cons p d ih =>
    obtain ⟨k1, v1⟩ := p
    rw [List.cons_append, get?_cons, get?_cons, ih]
    split <;> simp

theorem keys_append (d d' : Dict K V) : keys (d ++ d') = keys d ++ keys d' := List.map_append

end Dict

end Verif
