import Mathlib.Tactic.Tauto
import Verif.Model.Threads

/-! # Threads with variables of their own do not disturb each other (C94) -/

namespace Verif.Lemmas.Threads

open Verif.Model Verif.Model.Switch

/-- The pointers of a state. -/
def ptrs (s : St) : List Ptr := [s.circ, s.prot, s.gcC, s.gcP, s.zkC, s.zkP, s.offC, s.offP, s.ks, s.enc]

/-- `t` is what a thread sees that would see `s` if it were alone: its objects have other names (`ρ`), and there are objects of others:
`D` are the names of others, `F` those of them that are alive. -/
structure Sim (ρ : Nat → Nat) (D : Nat → Prop) (F : Nat → Kind → Prop) (s t : St) : Prop where
  bound : ∀ x ∈ s.heap, x.1 < s.next
  nodupS : (s.heap.map (·.1)).Nodup
  nodupT : (t.heap.map (·.1)).Nodup
  lt : ∀ k, k < s.next → ρ k < t.next
  others : ∀ x, D x → x < t.next
  alive : ∀ x κ, F x κ → D x
  inj : ∀ k l, k < s.next → l < s.next → ρ k = ρ l → k = l
  apart : ∀ x, D x → ∀ k, k < s.next → ρ k ≠ x
  mem : ∀ x κ, (x, κ) ∈ t.heap ↔ F x κ ∨ ∃ k, (k, κ) ∈ s.heap ∧ ρ k = x
  valid : ∀ p ∈ ptrs s, ∀ k, p = some k → k < s.next
  ptr : ptrs t = (ptrs s).map (Option.map ρ)
  flag : t.enableOffline = s.enableOffline

/-- Both stop with the same error, or go on in states that belong together. -/
def Both (D : Nat → Prop) (F : Nat → Kind → Prop) (n : Nat) (ρ : Nat → Nat) : Res St → Res St → Prop
  | .ok s, .ok t => ∃ ρ', Sim ρ' D F s t ∧ n ≤ s.next ∧ ∀ k, k < n → ρ' k = ρ k
  | .error e, .error e' => e = e'
  | _, _ => False

section
variable {ρ : Nat → Nat} {D : Nat → Prop} {F : Nat → Kind → Prop} {s t : St}

theorem nodup_unique {l : List (Nat × Kind)} (h : (l.map (·.1)).Nodup) {x : Nat} {a b : Kind} (ha : (x, a) ∈ l) (hb : (x, b) ∈ l) :
    a = b := by
  induction l with
  | nil => cases ha
  | cons y l ih =>
    simp only [List.map_cons, List.nodup_cons] at h
    rcases List.mem_cons.mp ha with e | ha
    · rcases List.mem_cons.mp hb with e' | hb
      · rw [← e] at e'; exact (Prod.mk.inj e').2.symm
      · exact absurd (List.mem_map.mpr ⟨_, hb, by rw [← e]⟩) h.1
    · rcases List.mem_cons.mp hb with e' | hb
      · exact absurd (List.mem_map.mpr ⟨_, ha, by rw [← e']⟩) h.1
      · exact ih h.2 ha hb

theorem any_iff (l : List (Nat × Kind)) (i : Nat) : l.any (·.1 == i) = true ↔ ∃ κ, (i, κ) ∈ l := by
  simp only [List.any_eq_true, beq_iff_eq]
  constructor
  · rintro ⟨⟨x, κ⟩, h, rfl⟩; exact ⟨κ, h⟩
  · rintro ⟨κ, h⟩; exact ⟨_, h, rfl⟩

theorem find_iff {l : List (Nat × Kind)} (h : (l.map (·.1)).Nodup) (i : Nat) (κ : Kind) :
    (l.find? (·.1 == i)).map (·.2) = some κ ↔ (i, κ) ∈ l := by
  constructor
  · intro hf
    obtain ⟨y, hy, e⟩ := Option.map_eq_some_iff.mp hf
    have h1 := List.mem_of_find?_eq_some hy
    have h2 := List.find?_some hy
    simp only [beq_iff_eq] at h2
    obtain ⟨a, b⟩ := y
    simp only at h2 e
    subst h2 e
    exact h1
  · intro hm
    cases hf : l.find? (·.1 == i) with
    | none =>
      have := List.find?_eq_none.mp hf _ hm
      simp at this
    | some y =>
      have h1 := List.mem_of_find?_eq_some hf
      have h2 := List.find?_some hf
      simp only [beq_iff_eq] at h2
      obtain ⟨a, b⟩ := y
      simp only at h2
      subst h2
      simp only [Option.map_some, Option.some.injEq]
      exact nodup_unique h h1 hm

theorem erase_mem {l : List (Nat × Kind)} (h : (l.map (·.1)).Nodup) (i x : Nat) (κ : Kind) :
    (x, κ) ∈ l.eraseP (·.1 == i) ↔ (x, κ) ∈ l ∧ x ≠ i := by
  induction l with
  | nil => simp
  | cons y l ih =>
    simp only [List.map_cons, List.nodup_cons] at h
    obtain ⟨a, b⟩ := y
    by_cases e : a = i
    · subst e
      rw [List.eraseP_cons_of_pos (by simp)]
      constructor
      · intro hm
        exact ⟨List.mem_cons_of_mem _ hm, fun e => h.1 (List.mem_map.mpr ⟨_, hm, e⟩)⟩
      · rintro ⟨hm, hn⟩
        rcases List.mem_cons.mp hm with e | hm
        · exact absurd (Prod.mk.inj e).1 hn
        · exact hm
    · rw [List.eraseP_cons_of_neg (by simpa using e), List.mem_cons, ih h.2, List.mem_cons]
      constructor
      · rintro (e' | ⟨h1, h2⟩)
        · exact ⟨.inl e', by rw [(Prod.mk.inj e').1]; exact e⟩
        · exact ⟨.inr h1, h2⟩
      · rintro ⟨e' | h1, h2⟩
        · exact .inl e'
        · exact .inr ⟨h1, h2⟩

theorem erase_nodup {l : List (Nat × Kind)} (h : (l.map (·.1)).Nodup) (i : Nat) : ((l.eraseP (·.1 == i)).map (·.1)).Nodup :=
  h.sublist (List.eraseP_sublist.map _)

theorem Sim.objs (h : Sim ρ D F s t) {i : Nat} (hi : i < s.next) (κ : Kind) : (ρ i, κ) ∈ t.heap ↔ (i, κ) ∈ s.heap := by
  rw [h.mem]
  constructor
  · rintro (hf | ⟨k, hk, e⟩)
    · exact absurd rfl (h.apart _ (h.alive _ _ hf) i hi)
    · rw [← h.inj k i (h.bound _ hk) hi e]; exact hk
  · intro hm; exact .inr ⟨i, hm, rfl⟩

/-- The pointers of the thread refer to objects of the same kind. -/
theorem Sim.kind (h : Sim ρ D F s t) {p : Ptr} (hp : p ∈ ptrs s) : t.kind (p.map ρ) = s.kind p := by
  cases p with
  | none => rfl
  | some i =>
    have hi := h.valid _ hp i rfl
    simp only [Option.map_some, St.kind]
    apply Option.ext
    intro κ
    rw [find_iff h.nodupT, find_iff h.nodupS]
    exact h.objs hi κ

theorem Sim.delete (h : Sim ρ D F s t) {p : Ptr} (hp : p ∈ ptrs s) : Both D F s.next ρ (s.delete p) (t.delete (p.map ρ)) := by
  cases p with
  | none => exact ⟨ρ, h, Nat.le_refl _, fun _ _ => rfl⟩
  | some i =>
    have hi := h.valid _ hp i rfl
    have e : t.heap.any (·.1 == ρ i) = s.heap.any (·.1 == i) := by
      rw [Bool.eq_iff_iff, any_iff, any_iff]
      exact exists_congr fun κ => h.objs hi κ
    simp only [St.delete, Option.map_some, e]
    split
    · rename_i ha
      refine ⟨ρ, ?_, Nat.le_refl _, fun _ _ => rfl⟩
      refine
        { bound := fun x hx => h.bound x (List.mem_of_mem_eraseP hx)
          nodupS := erase_nodup h.nodupS i
          nodupT := erase_nodup h.nodupT (ρ i)
          lt := h.lt
          others := h.others
          alive := h.alive
          inj := h.inj
          apart := h.apart
          mem := fun x κ => ?_
          valid := h.valid
          ptr := h.ptr
          flag := h.flag }
      simp only
      rw [erase_mem h.nodupT, h.mem]
      constructor
      · rintro ⟨hf | ⟨k, hk, e⟩, hn⟩
        · exact .inl hf
        · exact .inr ⟨k, (erase_mem h.nodupS i k κ).mpr ⟨hk, fun e' => hn (by rw [← e, e'])⟩, e⟩
      · rintro (hf | ⟨k, hk, e⟩)
        · exact ⟨.inl hf, fun e => h.apart _ (h.alive _ _ hf) i hi e.symm⟩
        · obtain ⟨h1, h2⟩ := (erase_mem h.nodupS i k κ).mp hk
          exact ⟨.inr ⟨k, h1, e⟩, fun e' => h2 (h.inj k i (h.bound _ h1) hi (e.trans e'))⟩
    · rfl

/-- A new object. -/
theorem Sim.alloc (h : Sim ρ D F s t) (κ : Kind) :
    ∃ ρ', Sim ρ' D F (s.alloc κ).2 (t.alloc κ).2 ∧ ρ' s.next = t.next ∧ ∀ k, k < s.next → ρ' k = ρ k := by
  let ρ' : Nat → Nat := fun k => if k = s.next then t.next else ρ k
  have h0 : ρ' s.next = t.next := by simp [ρ']
  have h1 : ∀ k, k < s.next → ρ' k = ρ k := fun k hk => by simp [ρ', Nat.ne_of_lt hk]
  refine ⟨ρ', ?_, h0, h1⟩
  have cs : ∀ k, k < s.next + 1 → k < s.next ∨ k = s.next := by omega
  have old : ∀ x, D x → x ≠ t.next := fun x hx => Nat.ne_of_lt (h.others x hx)
  refine
    { bound := ?_
      nodupS := ?_
      nodupT := ?_
      lt := ?_
      others := fun x hx => Nat.lt_succ_of_lt (h.others x hx)
      alive := h.alive
      inj := ?_
      apart := ?_
      mem := ?_
      valid := fun p hp k hk => Nat.lt_succ_of_lt (h.valid p hp k hk)
      ptr := ?_
      flag := h.flag }
  · intro x hx
    rcases List.mem_cons.mp hx with rfl | hx
    · exact Nat.lt_succ_self _
    · exact Nat.lt_succ_of_lt (h.bound x hx)
  · refine List.nodup_cons.mpr ⟨?_, h.nodupS⟩
    intro hm
    obtain ⟨x, hx, e⟩ := List.mem_map.mp hm
    have := h.bound x hx
    simp only at e
    omega
  · refine List.nodup_cons.mpr ⟨?_, h.nodupT⟩
    intro hm
    obtain ⟨⟨x, κ'⟩, hx, e⟩ := List.mem_map.mp hm
    simp only at e
    rcases (h.mem x κ').mp hx with hf | ⟨k, hk, e'⟩
    · exact old x (h.alive _ _ hf) e
    · have := h.lt k (h.bound _ hk)
      omega
  · intro k hk
    rcases cs k hk with hk | rfl
    · rw [h1 k hk]; exact Nat.lt_succ_of_lt (h.lt k hk)
    · rw [h0]; exact Nat.lt_succ_self _
  · intro k l hk hl e
    rcases cs k hk with hk | rfl <;> rcases cs l hl with hl | rfl
    · rw [h1 k hk, h1 l hl] at e; exact h.inj k l hk hl e
    · rw [h1 k hk, h0] at e; have := h.lt k hk; omega
    · rw [h0, h1 l hl] at e; have := h.lt l hl; omega
    · rfl
  · intro x hx k hk
    rcases cs k hk with hk | rfl
    · rw [h1 k hk]; exact h.apart x hx k hk
    · rw [h0]; exact (old x hx).symm
  · intro x κ'
    simp only [St.alloc, List.mem_cons, Prod.mk.injEq]
    rw [h.mem]
    constructor
    · rintro (⟨rfl, rfl⟩ | hf | ⟨k, hk, e⟩)
      · exact .inr ⟨s.next, .inl ⟨rfl, rfl⟩, h0⟩
      · exact .inl hf
      · exact .inr ⟨k, .inr hk, by rw [h1 k (h.bound _ hk)]; exact e⟩
    · rintro (hf | ⟨k, ⟨rfl, rfl⟩ | hk, e⟩)
      · exact .inr (.inl hf)
      · exact .inl ⟨e.symm.trans h0, rfl⟩
      · exact .inr (.inr ⟨k, hk, by rw [← h1 k (h.bound _ hk)]; exact e⟩)
  · have : ptrs t = (ptrs s).map (Option.map ρ') := by
      rw [h.ptr]
      refine List.map_congr_left fun p hp => ?_
      cases p with
      | none => rfl
      | some k => simp only [Option.map_some]; rw [h1 k (h.valid _ hp k rfl)]
    exact this

/-- Other values of the variables, the same on both sides. -/
theorem Sim.assign (h : Sim ρ D F s t) {s' t' : St} (hs : s'.heap = s.heap) (hn : s'.next = s.next) (ht : t'.heap = t.heap)
    (htn : t'.next = t.next) (hv : ∀ p ∈ ptrs s', p ∈ ptrs s ∨ p = none ∨ ∃ k, k < s.next ∧ p = some k)
    (hp : ptrs t' = (ptrs s').map (Option.map ρ)) (hf : t'.enableOffline = s'.enableOffline) : Sim ρ D F s' t' where
  bound := by rw [hs, hn]; exact h.bound
  nodupS := by rw [hs]; exact h.nodupS
  nodupT := by rw [ht]; exact h.nodupT
  lt := by rw [hn, htn]; exact h.lt
  others := by rw [htn]; exact h.others
  alive := h.alive
  inj := by rw [hn]; exact h.inj
  apart := by rw [hn]; exact h.apart
  mem := by rw [hs, ht]; exact h.mem
  valid := by
    intro p hp k hk
    rw [hn]
    rcases hv p hp with h1 | h1 | ⟨l, h1, h2⟩
    · exact h.valid p h1 k hk
    · rw [h1] at hk; cases hk
    · rw [h2] at hk; cases hk; exact h1
  ptr := hp
  flag := hf

theorem Sim.fields (h : Sim ρ D F s t) : t.circ = s.circ.map ρ ∧ t.prot = s.prot.map ρ ∧ t.gcC = s.gcC.map ρ ∧ t.gcP = s.gcP.map ρ ∧
    t.zkC = s.zkC.map ρ ∧ t.zkP = s.zkP.map ρ ∧ t.offC = s.offC.map ρ ∧ t.offP = s.offP.map ρ ∧ t.ks = s.ks.map ρ ∧
    t.enc = s.enc.map ρ := by
  have := h.ptr
  simpa [ptrs] using this

/-! ### The calls -/

/-- As `Both`, for functions that also say whether they threw. -/
def Both2 (D : Nat → Prop) (F : Nat → Kind → Prop) (n : Nat) (ρ : Nat → Nat) : Res (St × Bool) → Res (St × Bool) → Prop
  | .ok s, .ok t => (∃ ρ', Sim ρ' D F s.1 t.1 ∧ n ≤ s.1.next ∧ ∀ k, k < n → ρ' k = ρ k) ∧ s.2 = t.2
  | .error e, .error e' => e = e'
  | _, _ => False

theorem Both.later {n : Nat} {ρ' : Nat → Nat} (hn : n ≤ s.next) (ha : ∀ k, k < n → ρ' k = ρ k) {x y : Res St}
    (h : Both D F s.next ρ' x y) : Both D F n ρ x y := by
  cases x <;> cases y <;> simp only [Both] at h ⊢
  · exact h
  · obtain ⟨ρ'', h1, h2, h3⟩ := h
    exact ⟨ρ'', h1, Nat.le_trans hn h2, fun k hk => by rw [h3 k (Nat.lt_of_lt_of_le hk hn), ha k hk]⟩

theorem Both2.later {n : Nat} {ρ' : Nat → Nat} (hn : n ≤ s.next) (ha : ∀ k, k < n → ρ' k = ρ k) {x y : Res (St × Bool)}
    (h : Both2 D F s.next ρ' x y) : Both2 D F n ρ x y := by
  cases x <;> cases y <;> simp only [Both2] at h ⊢
  · exact h
  · obtain ⟨⟨ρ'', h1, h2, h3⟩, h4⟩ := h
    exact ⟨⟨ρ'', h1, Nat.le_trans hn h2, fun k hk => by rw [h3 k (Nat.lt_of_lt_of_le hk hn), ha k hk]⟩, h4⟩

theorem Both.bind {n : Nat} {x y : Res St} {f g : St → Res St} (h : Both D F n ρ x y)
    (hf : ∀ ρ' s t, Sim ρ' D F s t → Both D F s.next ρ' (f s) (g t)) : Both D F n ρ (x.bind f) (y.bind g) := by
  cases x <;> cases y <;> simp only [Both] at h
  · exact h
  · obtain ⟨ρ', h1, h2, h3⟩ := h
    exact .later h2 h3 (hf ρ' _ _ h1)

theorem Both.bind2 {n : Nat} {x y : Res St} {f g : St → Res (St × Bool)} (h : Both D F n ρ x y)
    (hf : ∀ ρ' s t, Sim ρ' D F s t → Both2 D F s.next ρ' (f s) (g t)) : Both2 D F n ρ (x.bind f) (y.bind g) := by
  cases x <;> cases y <;> simp only [Both] at h
  · exact h
  · obtain ⟨ρ', h1, h2, h3⟩ := h
    exact .later h2 h3 (hf ρ' _ _ h1)

theorem Both2.bind {n : Nat} {x y : Res (St × Bool)} {f g : St × Bool → Res (St × Bool)} (h : Both2 D F n ρ x y)
    (hf : ∀ ρ' s t b, Sim ρ' D F s t → Both2 D F s.next ρ' (f (s, b)) (g (t, b))) : Both2 D F n ρ (x.bind f) (y.bind g) := by
  cases x <;> cases y <;> simp only [Both2] at h
  · exact h
  · obtain ⟨⟨ρ', h1, h2, h3⟩, h4⟩ := h
    rename_i a b
    obtain ⟨a, ab⟩ := a
    obtain ⟨b, bb⟩ := b
    simp only at h4
    subst h4
    exact .later h2 h3 (hf ρ' _ _ _ h1)

theorem Sim.same (h : Sim ρ D F s t) : Both D F s.next ρ (.ok s) (.ok t) := ⟨ρ, h, Nat.le_refl _, fun _ _ => rfl⟩

theorem Sim.same2 (h : Sim ρ D F s t) (b : Bool) : Both2 D F s.next ρ (.ok (s, b)) (.ok (t, b)) :=
  ⟨⟨ρ, h, Nat.le_refl _, fun _ _ => rfl⟩, rfl⟩

theorem Sim.resetProt (h : Sim ρ D F s t) : Sim ρ D F (resetProt s) (resetProt t) := by
  refine h.assign rfl rfl rfl rfl ?_ ?_ h.flag
  · intro p hp
    simp only [ptrs, Switch.resetProt, List.mem_cons, List.not_mem_nil, or_false] at hp ⊢
    tauto
  · have := h.fields
    simp [ptrs, Switch.resetProt, this]

theorem Sim.backup (h : Sim ρ D F s t) (g : Stage) : Sim ρ D F (backup g s) (backup g t) := by
  have f := h.fields
  cases g <;> refine h.assign rfl rfl rfl rfl ?_ ?_ h.flag <;>
    first
      | (intro p hp; simp only [ptrs, Switch.backup, List.mem_cons, List.not_mem_nil, or_false] at hp ⊢; tauto)
      | simp [ptrs, Switch.backup, f]

theorem Sim.resetBuf (h : Sim ρ D F s t) (g : Stage) : Sim ρ D F (resetBuf g s) (resetBuf g t) := by
  have f := h.fields
  cases g <;> refine h.assign rfl rfl rfl rfl ?_ ?_ h.flag <;>
    first
      | (intro p hp; simp only [ptrs, Switch.resetBuf, List.mem_cons, List.not_mem_nil, or_false] at hp ⊢; tauto)
      | simp [ptrs, Switch.resetBuf, f]

theorem Sim.toZk (h : Sim ρ D F s t) : Sim ρ D F (toZk s) (toZk t) := by
  have f := h.fields
  refine h.assign rfl rfl rfl rfl ?_ ?_ h.flag
  · intro p hp; simp only [ptrs, Switch.toZk, List.mem_cons, List.not_mem_nil, or_false] at hp ⊢; tauto
  · simp [ptrs, Switch.toZk, f]

theorem Sim.toGc (h : Sim ρ D F s t) : Sim ρ D F (toGc s) (toGc t) := by
  have f := h.fields
  refine h.assign rfl rfl rfl rfl ?_ ?_ h.flag
  · intro p hp; simp only [ptrs, Switch.toGc, List.mem_cons, List.not_mem_nil, or_false] at hp ⊢; tauto
  · simp [ptrs, Switch.toGc, f]

theorem Sim.setFlag (h : Sim ρ D F s t) (b : Bool) :
    Sim ρ D F { s with enableOffline := b } { t with enableOffline := b } :=
  h.assign rfl rfl rfl rfl (fun _ hp => .inl hp) h.ptr rfl

theorem Sim.deleteProt (h : Sim ρ D F s t) : Both D F s.next ρ (deleteProt s) (deleteProt t) := by
  show Both D F s.next ρ ((s.delete s.circ).bind fun s => (s.delete s.prot).bind fun s => .ok (Switch.resetProt s))
    ((t.delete t.circ).bind fun t => (t.delete t.prot).bind fun t => .ok (Switch.resetProt t))
  rw [h.fields.1]
  refine (h.delete (by simp [ptrs])).bind fun ρ1 s1 t1 h1 => ?_
  rw [h1.fields.2.1]
  refine (h1.delete (by simp [ptrs])).bind fun ρ2 s2 t2 h2 => ?_
  exact h2.resetProt.same

/-- A new object in a variable. -/
theorem Sim.newCirc (h : Sim ρ D F s t) (κ : Kind) :
    ∃ ρ', Sim ρ' D F { (s.alloc κ).2 with circ := some s.next } { (t.alloc κ).2 with circ := some t.next } ∧
      ∀ k, k < s.next → ρ' k = ρ k := by
  obtain ⟨ρ', h1, h2, h3⟩ := h.alloc κ
  refine ⟨ρ', h1.assign rfl rfl rfl rfl ?_ ?_ h1.flag, h3⟩
  · intro p hp
    have : s.next < (s.alloc κ).2.next := Nat.lt_succ_self _
    simp only [ptrs, List.mem_cons, List.not_mem_nil, or_false] at hp ⊢
    rcases hp with rfl | hp
    · exact .inr (.inr ⟨_, this, rfl⟩)
    · tauto
  · simp [ptrs, h1.fields, h2]

theorem Sim.newProt (h : Sim ρ D F s t) (κ : Kind) :
    ∃ ρ', Sim ρ' D F { (s.alloc κ).2 with prot := some s.next } { (t.alloc κ).2 with prot := some t.next } ∧
      ∀ k, k < s.next → ρ' k = ρ k := by
  obtain ⟨ρ', h1, h2, h3⟩ := h.alloc κ
  refine ⟨ρ', h1.assign rfl rfl rfl rfl ?_ ?_ h1.flag, h3⟩
  · intro p hp
    have : s.next < (s.alloc κ).2.next := Nat.lt_succ_self _
    simp only [ptrs, List.mem_cons, List.not_mem_nil, or_false] at hp ⊢
    rcases hp with hp | rfl | hp
    · tauto
    · exact .inr (.inr ⟨_, this, rfl⟩)
    · tauto
  · simp [ptrs, h1.fields, h2]

theorem Sim.newKs (h : Sim ρ D F s t) (κ : Kind) :
    ∃ ρ', Sim ρ' D F { (s.alloc κ).2 with ks := some s.next } { (t.alloc κ).2 with ks := some t.next } ∧
      ∀ k, k < s.next → ρ' k = ρ k := by
  obtain ⟨ρ', h1, h2, h3⟩ := h.alloc κ
  refine ⟨ρ', h1.assign rfl rfl rfl rfl ?_ ?_ h1.flag, h3⟩
  · intro p hp
    have : s.next < (s.alloc κ).2.next := Nat.lt_succ_self _
    by_cases e : p = some s.next
    · exact .inr (.inr ⟨_, this, e⟩)
    · simp only [ptrs, List.mem_cons, List.not_mem_nil, or_false] at hp ⊢
      tauto
  · simp [ptrs, h1.fields, h2]

theorem Sim.newEnc (h : Sim ρ D F s t) (κ : Kind) :
    ∃ ρ', Sim ρ' D F { (s.alloc κ).2 with enc := some s.next } { (t.alloc κ).2 with enc := some t.next } ∧
      ∀ k, k < s.next → ρ' k = ρ k := by
  obtain ⟨ρ', h1, h2, h3⟩ := h.alloc κ
  refine ⟨ρ', h1.assign rfl rfl rfl rfl ?_ ?_ h1.flag, h3⟩
  · intro p hp
    have : s.next < (s.alloc κ).2.next := Nat.lt_succ_self _
    by_cases e : p = some s.next
    · exact .inr (.inr ⟨_, this, e⟩)
    · simp only [ptrs, List.mem_cons, List.not_mem_nil, or_false] at hp ⊢
      tauto
  · simp [ptrs, h1.fields, h2]

theorem Sim.initFiles (h : Sim ρ D F s t) : Both D F s.next ρ (.ok (initFiles s)) (.ok (initFiles t)) := by
  obtain ⟨ρ1, h1, a1⟩ := h.newKs .file
  obtain ⟨ρ2, h2, a2⟩ := h1.newEnc .file
  exact ⟨ρ2, h2, Nat.le_succ_of_le (Nat.le_succ _), fun k hk => by rw [a2 k (Nat.lt_succ_of_lt hk), a1 k hk]⟩

theorem Sim.uninitFiles (h : Sim ρ D F s t) : Both D F s.next ρ (uninitFiles s) (uninitFiles t) := by
  show Both D F s.next ρ ((s.delete s.ks).bind fun s => s.delete s.enc) ((t.delete t.ks).bind fun t => t.delete t.enc)
  rw [h.fields.2.2.2.2.2.2.2.2.1]
  refine (h.delete (by simp [ptrs])).bind fun ρ1 s1 t1 h1 => ?_
  rw [h1.fields.2.2.2.2.2.2.2.2.2]
  exact h1.delete (by simp [ptrs])

theorem Sim.setupFn (h : Sim ρ D F s t) (κ : Kind) (fail : Option Point) :
    Both2 D F s.next ρ (.ok (setupFn κ fail s)) (.ok (setupFn κ fail t)) := by
  rcases fail with _ | _ | _
  · obtain ⟨ρ1, h1, a1⟩ := h.newCirc κ
    obtain ⟨ρ2, h2, a2⟩ := h1.newProt κ
    exact ⟨⟨ρ2, h2, Nat.le_succ_of_le (Nat.le_succ _), fun k hk => by rw [a2 k (Nat.lt_succ_of_lt hk), a1 k hk]⟩, rfl⟩
  · exact h.same2 true
  · obtain ⟨ρ1, h1, a1⟩ := h.newCirc κ
    exact ⟨⟨ρ1, h1, Nat.le_succ _, a1⟩, rfl⟩

theorem Sim.safeSetup (h : Sim ρ D F s t) (κ : Kind) (g : Stage) (fail : Option Point) :
    Both2 D F s.next ρ (safeSetup κ g fail s) (safeSetup κ g fail t) := by
  have e : ∀ s, Switch.safeSetup κ g fail s = (Except.ok (Switch.setupFn κ fail (Switch.resetProt s)) : Res (St × Bool)).bind fun p =>
      if p.2 then (Switch.deleteProt p.1).bind fun s => .ok (Switch.resetBuf g s, true) else .ok (Switch.backup g p.1, false) := by
    intro s
    simp only [Switch.safeSetup, Except.bind]
    generalize Switch.setupFn κ fail (Switch.resetProt s) = p
    obtain ⟨p, b⟩ := p
    cases b <;> rfl
  rw [e, e]
  refine (h.resetProt.setupFn κ fail).bind fun ρ1 s1 t1 b h1 => ?_
  cases b
  · cases g <;> exact (h1.backup _).same2 false
  · exact h1.deleteProt.bind2 fun ρ2 s2 t2 h2 => by cases g <;> exact (h2.resetBuf _).same2 true

theorem Sim.setup (h : Sim ρ D F s t) (off : Bool) (fail : Option (Stage × Point)) :
    Both2 D F s.next ρ (setup off fail s) (setup off fail t) := by
  have e : ∀ s, Switch.setup off fail s = (Except.ok (Switch.initFiles s) : Res St).bind fun s =>
      (Switch.safeSetup .zk .zk (at? fail .zk) s).bind fun p =>
        if p.2 then .ok (p.1, true)
        else if off = false then
          (Switch.safeSetup .gc .gc (at? fail .gc) p.1).bind fun p =>
            if p.2 then .ok (p.1, true) else .ok ({ p.1 with enableOffline := off }, false)
        else
          (Switch.safeSetup .online .gc (at? fail .gc) p.1).bind fun p =>
            if p.2 then .ok (p.1, true)
            else (Switch.safeSetup .offline .off (at? fail .off) p.1).bind fun p =>
              if p.2 then .ok (p.1, true) else .ok ({ p.1 with enableOffline := off }, false) := by
    intro s
    cases off <;> rfl
  rw [e, e]
  refine h.initFiles.bind2 fun ρ1 s1 t1 h1 => ?_
  refine (h1.safeSetup ..).bind fun ρ2 s2 t2 b h2 => ?_
  cases b
  · cases off
    · refine (h2.safeSetup ..).bind fun ρ3 s3 t3 b h3 => ?_
      cases b
      · exact (h3.setFlag _).same2 false
      · exact h3.same2 true
    · refine (h2.safeSetup ..).bind fun ρ3 s3 t3 b h3 => ?_
      cases b
      · refine (h3.safeSetup ..).bind fun ρ4 s4 t4 b h4 => ?_
        cases b
        · exact (h4.setFlag _).same2 false
        · exact h4.same2 true
      · exact h3.same2 true
  · exact h2.same2 true

theorem bind_congr' (x : Res St) (f g : St → Res St) (h : ∀ s, f s = g s) : x.bind f = x.bind g := by rw [funext h]

theorem Sim.finalize (h : Sim ρ D F s t) : Both D F s.next ρ (finalize s) (finalize t) := by
  have e : ∀ s, Switch.finalize s = (s.delete s.gcC).bind fun s => (s.delete s.gcP).bind fun s => (s.delete s.zkC).bind fun s =>
      (s.delete s.zkP).bind fun s =>
        (if s.enableOffline then (s.delete s.offC).bind fun s => s.delete s.offP else .ok s).bind Switch.uninitFiles := by
    intro s
    simp only [Switch.finalize, bind]
    refine bind_congr' _ _ _ fun s => bind_congr' _ _ _ fun s => bind_congr' _ _ _ fun s => bind_congr' _ _ _ fun s => ?_
    split
    · cases s.delete s.offC <;> rfl
    · rfl
  rw [e, e, h.fields.2.2.1]
  refine (h.delete (by simp [ptrs])).bind fun ρ1 s1 t1 h1 => ?_
  rw [h1.fields.2.2.2.1]
  refine (h1.delete (by simp [ptrs])).bind fun ρ2 s2 t2 h2 => ?_
  rw [h2.fields.2.2.2.2.1]
  refine (h2.delete (by simp [ptrs])).bind fun ρ3 s3 t3 h3 => ?_
  rw [h3.fields.2.2.2.2.2.1]
  refine (h3.delete (by simp [ptrs])).bind fun ρ4 s4 t4 h4 => ?_
  refine Both.bind ?_ fun ρ5 s5 t5 h5 => h5.uninitFiles
  rw [h4.flag]
  split
  · rw [h4.fields.2.2.2.2.2.2.1]
    refine (h4.delete (by simp [ptrs])).bind fun ρ5 s5 t5 h5 => ?_
    rw [h5.fields.2.2.2.2.2.2.2.1]
    exact h5.delete (by simp [ptrs])
  · exact h4.same

/-- One call. -/
theorem Sim.step (h : Sim ρ D F s t) (o : Op) : Both D F s.next ρ (step o s) (step o t) := by
  obtain ⟨f1, f2, f3, f4, f5, f6, f7, f8, f9, f10⟩ := h.fields
  cases o with
  | setup off fail =>
    have := h.setup off fail
    simp only [Switch.step]
    cases hs : Switch.setup off fail s <;> cases ht : Switch.setup off fail t <;> rw [hs, ht] at this <;>
      simp only [Both2] at this
    · exact this
    · exact this.1
  | toZk => exact h.toZk.same
  | toGc => exact h.toGc.same
  | toOnline =>
    simp only [Switch.step, Switch.toOnline]
    rw [f8, f7, f4, f3, h.kind (by simp [ptrs]), h.kind (by simp [ptrs]), h.kind (by simp [ptrs]), h.kind (by simp [ptrs])]
    split
    · exact h.toGc.same
    · rfl
  | sync =>
    simp only [Switch.step, Switch.sync]
    rw [f2, h.kind (by simp [ptrs])]
    split
    · exact h.same
    · rfl
  | use =>
    simp only [Switch.step, Switch.use]
    rw [f1, f2, h.kind (by simp [ptrs]), h.kind (by simp [ptrs])]
    split
    · exact h.same
    · rfl
  | finalize => exact h.finalize

end

/-! ### All threads -/

/-- Every thread sees what it would see alone, with other names. -/
structure Inv (m : Threads) (solo : Nat → St) : Prop where
  sims : ∃ ρ : Nat → Nat → Nat, ∀ i, Sim (ρ i) (fun x => ∃ j l, j ≠ i ∧ l < (solo j).next ∧ ρ j l = x)
    (fun x κ => ∃ j l, j ≠ i ∧ (l, κ) ∈ (solo j).heap ∧ ρ j l = x) (solo i) (m.view i)

theorem view_put_same (m : Threads) (i : Nat) (s : St) : (m.put i s).view i = s := by
  simp [Threads.view, Threads.put]

theorem inv_step {m : Threads} {solo : Nat → St} (h : Inv m solo) (i : Nat) (o : Op) :
    match step o (solo i), tstep true i o m with
    | .ok s, .ok m' => Inv m' (fun j => if j = i then s else solo j)
    | .error e, .error e' => e = e'
    | _, _ => False := by
  obtain ⟨ρ, hρ⟩ := h.sims
  have hs := (hρ i).step o
  simp only [tstep, if_true]
  cases h1 : step o (solo i) with
  | error e =>
    cases h2 : step o (m.view i) with
    | error e' => rw [h1, h2] at hs; exact hs
    | ok t => rw [h1, h2] at hs; exact hs.elim
  | ok s =>
    cases h2 : step o (m.view i) with
    | error e' => rw [h1, h2] at hs; exact hs.elim
    | ok t =>
      rw [h1, h2] at hs
      obtain ⟨ρ', hS, hn, ha⟩ := hs
      simp only [Except.map]
      have sj : ∀ j, j ≠ i → (if j = i then s else solo j) = solo j := fun j hj => by simp [hj]
      have rj : ∀ j, j ≠ i → (if j = i then ρ' else ρ j) = ρ j := fun j hj => by simp [hj]
      refine ⟨⟨fun j => if j = i then ρ' else ρ j, fun j => ?_⟩⟩
      by_cases hj : j = i
      · subst hj
        rw [view_put_same]
        simp only [if_true]
        have eD : (fun x => ∃ k l, k ≠ j ∧ l < (if k = j then s else solo k).next ∧ (if k = j then ρ' else ρ k) l = x) =
            fun x => ∃ k l, k ≠ j ∧ l < (solo k).next ∧ ρ k l = x := by
          funext x
          refine propext (exists_congr fun k => exists_congr fun l => and_congr_right fun hk => ?_)
          rw [sj k hk, rj k hk]
        have eF : (fun x κ => ∃ k l, k ≠ j ∧ (l, κ) ∈ (if k = j then s else solo k).heap ∧ (if k = j then ρ' else ρ k) l = x) =
            fun x κ => ∃ k l, k ≠ j ∧ (l, κ) ∈ (solo k).heap ∧ ρ k l = x := by
          funext x κ
          refine propext (exists_congr fun k => exists_congr fun l => and_congr_right fun hk => ?_)
          rw [sj k hk, rj k hk]
        rw [eD, eF]
        exact hS
      · have hJ := hρ j
        simp only [hj, if_false]
        have hle : ∀ k, k < (solo j).next → ρ j k < t.next :=
          fun k hk => hS.others _ ⟨j, k, hj, hk, rfl⟩
        refine
          { bound := hJ.bound
            nodupS := hJ.nodupS
            nodupT := hS.nodupT
            lt := hle
            others := ?_
            alive := ?_
            inj := hJ.inj
            apart := ?_
            mem := ?_
            valid := hJ.valid
            ptr := ?_
            flag := ?_ }
        · rintro x ⟨k, l, hk, hl, rfl⟩
          by_cases e : k = i
          · subst e; simp only [if_true] at hl ⊢; exact hS.lt l hl
          · simp only [e, if_false] at hl ⊢; exact hS.others _ ⟨k, l, e, hl, rfl⟩
        · rintro x κ ⟨k, l, hk, hl, rfl⟩
          refine ⟨k, l, hk, ?_, rfl⟩
          by_cases e : k = i
          · subst e; simp only [if_true] at hl ⊢; exact hS.bound _ hl
          · simp only [e, if_false] at hl ⊢; exact (hρ k).bound _ hl
        · rintro x ⟨k, l, hk, hl, rfl⟩ a hA
          by_cases e : k = i
          · subst e
            simp only [if_true] at hl ⊢
            exact fun e => hS.apart _ ⟨j, a, hj, hA, rfl⟩ l hl e.symm
          · simp only [e, if_false] at hl ⊢
            exact hJ.apart _ ⟨k, l, hk, hl, rfl⟩ a hA
        · intro x κ
          show (x, κ) ∈ t.heap ↔ _
          rw [hS.mem]
          constructor
          · rintro (⟨k, l, hk, hl, e⟩ | ⟨l, hl, e⟩)
            · by_cases ek : k = j
              · subst ek; exact .inr ⟨l, hl, e⟩
              · exact .inl ⟨k, l, ek, by simp only [hk, if_false]; exact hl, by simp only [hk, if_false]; exact e⟩
            · exact .inl ⟨i, l, fun e => hj e.symm, by simp only [if_true]; exact hl, by simp only [if_true]; exact e⟩
          · rintro (⟨k, l, hk, hl, e⟩ | ⟨l, hl, e⟩)
            · by_cases ek : k = i
              · subst ek
                simp only [if_true] at hl e
                exact .inr ⟨l, hl, e⟩
              · simp only [ek, if_false] at hl e
                exact .inl ⟨k, l, ek, hl, e⟩
            · exact .inl ⟨j, l, hj, hl, e⟩
        · have := hJ.ptr
          simpa [ptrs, Threads.view, Threads.put, hj] using this
        · have := hJ.flag
          simpa [Threads.view, Threads.put, hj] using this

theorem inv_init : Inv Threads.init (fun _ => init) := by
  refine ⟨⟨fun _ k => k, fun i => ?_⟩⟩
  constructor <;> simp [init, Threads.init, Threads.view, ptrs]

theorem run_cons' (o : Op) (l : List Op) (s : St) : run (o :: l) s = (step o s).bind (run l) := rfl

/-- A schedule goes through if and only if every thread alone does. -/
theorem inv_run (w : List (Nat × Op)) : ∀ {m : Threads} {solo : Nat → St}, Inv m solo →
    ((∃ m', trun true w m = .ok m') ↔ ∀ i, ∃ s, run (callsOf i w) (solo i) = .ok s) ∧
    ∀ m', trun true w m = .ok m' → ∃ solo', (∀ i, run (callsOf i w) (solo i) = .ok (solo' i)) ∧ Inv m' solo' := by
  induction w with
  | nil =>
    intro m solo h
    refine ⟨⟨fun _ i => ⟨_, rfl⟩, fun _ => ⟨_, rfl⟩⟩, ?_⟩
    rintro m' e
    cases e
    exact ⟨solo, fun _ => rfl, h⟩
  | cons p w ih =>
    intro m solo h
    obtain ⟨i, o⟩ := p
    have hst := inv_step h i o
    have own : callsOf i ((i, o) :: w) = o :: callsOf i w := by simp [callsOf]
    have oth : ∀ j, j ≠ i → callsOf j ((i, o) :: w) = callsOf j w := fun j hj => by
      simp only [callsOf]
      rw [List.filter_cons_of_neg (by simpa using fun e : i = j => hj e.symm)]
    have et : trun true ((i, o) :: w) m = (tstep true i o m).bind (trun true w) := rfl
    cases h1 : step o (solo i) with
    | error e =>
      cases h2 : tstep true i o m with
      | ok m' => rw [h1, h2] at hst; exact hst.elim
      | error e' =>
        rw [et, h2]
        refine ⟨⟨?_, ?_⟩, ?_⟩
        · rintro ⟨m', hm⟩; cases hm
        · intro hall
          obtain ⟨s, hs⟩ := hall i
          rw [own, run_cons', h1] at hs
          cases hs
        · intro m' hm; cases hm
    | ok s =>
      cases h2 : tstep true i o m with
      | error e' => rw [h1, h2] at hst; exact hst.elim
      | ok m1 =>
        rw [h1, h2] at hst
        obtain ⟨ih1, ih2⟩ := ih hst
        have er : ∀ j, run (callsOf j ((i, o) :: w)) (solo j) = run (callsOf j w) (if j = i then s else solo j) := by
          intro j
          by_cases hj : j = i
          · subst hj; rw [own, run_cons', h1, if_pos rfl]; rfl
          · rw [oth j hj, if_neg hj]
        rw [et, h2]
        simp only [er]
        exact ⟨ih1, ih2⟩

end Verif.Lemmas.Threads
