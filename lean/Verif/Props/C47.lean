import Verif.Model.Files
import Verif.Props.C50

/-!
# C47 - An interrupted write leaves no partial object
-/

namespace Backpak.C47

open Files Names

/-! ## Names -/

theorem split_last {c : UInt8} (s : Bytes) {t : Bytes} (h : c ∉ t) : split c (s ++ c :: t) = split c s ++ [t] := by
  induction s with
  | nil => simp [split, C50.split_free h]
  | cons x s ih =>
    rw [List.cons_append]
    unfold split
    rw [ih]
    split
    · rfl
    · cases hs : split c s with
      | nil =>
        exfalso
        cases s with
        | nil => cases hs
        | cons y s =>
          unfold split at hs
          split at hs
          · cases hs
          · split at hs <;> cases hs
      | cons a l => rfl

theorem split_ne (c : UInt8) (s : Bytes) : split c s ≠ [] := by
  cases s with
  | nil => simp [split]
  | cons x s =>
    unfold split
    split
    · simp
    · split <;> simp

theorem fileName_last (d : Bytes) {n : Bytes} (h : (47 : UInt8) ∉ n) (h1 : n ≠ []) (h2 : n ≠ [46]) (h3 : n ≠ [46, 46]) :
    fileName (d ++ 47 :: n) = some n := by
  unfold fileName
  rw [split_last d h]
  have : ((split 47 d ++ [n]).filter (fun c => c ≠ [] ∧ c ≠ [46])).getLast? = some n := by
    rw [List.filter_append]
    simp [h1, h2]
  rw [this]
  simp [h3]

/-- The path of an object: its name, in some directory. -/
inductive ObjectPath : Bytes → Prop
  | plain (k : Shelf) (id : ObjectId) : ObjectPath (objectName k id)
  | under (d : Bytes) (k : Shelf) (id : ObjectId) : ObjectPath (d ++ 47 :: objectName k id)

theorem object_fileName {p : Bytes} (h : ObjectPath p) : ∃ k id, fileName p = some (objectName k id) ∧
    ∀ t, (47 : UInt8) ∉ t → fileName (p ++ t) = some (objectName k id ++ t) := by
  have long : ∀ (k : Shelf) (id : ObjectId) (t : Bytes), 45 < (objectName k id ++ t).length := by
    intro k id t
    have := (C01.display_shape id).1
    unfold objectName
    rw [List.length_append, List.length_append, this, List.length_cons]
    omega
  have ne : ∀ (k : Shelf) (id : ObjectId) (t : Bytes), objectName k id ++ t ≠ [] ∧ objectName k id ++ t ≠ [46] ∧
      objectName k id ++ t ≠ [46, 46] := by
    intro k id t
    have := long k id t
    refine ⟨?_, ?_, ?_⟩ <;> (intro h; rw [h] at this; simp at this)
  have free : ∀ (k : Shelf) (id : ObjectId) (t : Bytes), (47 : UInt8) ∉ t → (47 : UInt8) ∉ objectName k id ++ t := by
    intro k id t ht h
    rcases List.mem_append.mp h with h | h
    · exact (C50.name_facts k id).1 h
    · exact ht h
  cases h with
  | plain k id =>
    obtain ⟨h1, h2, h3, h4⟩ := C50.name_facts k id
    refine ⟨k, id, C50.fileName_plain h1 h2 h3 h4, fun t ht => ?_⟩
    obtain ⟨a, b, c⟩ := ne k id t
    exact C50.fileName_plain (free k id t ht) a b c
  | under d k id =>
    obtain ⟨h1, h2, h3, h4⟩ := C50.name_facts k id
    refine ⟨k, id, fileName_last d h1 h2 h3 h4, fun t ht => ?_⟩
    obtain ⟨a, b, c⟩ := ne k id t
    rw [List.append_assoc, List.cons_append]
    exact fileName_last d (free k id t ht) a b c

/-- An object does not look like a temporary file, and a temporary file does. -/
theorem object_ext {p : Bytes} (h : ObjectPath p) : extension p ≠ some (ascii "part") := by
  obtain ⟨k, id, h1, _⟩ := object_fileName h
  unfold extension
  rw [h1, Option.bind_some]
  unfold objectName
  rw [C50.atDot_one (C50.plain id).1 (C50.display_ne_nil id) (C50.ext_plain k).1]
  cases k <;> simp [Shelf.ext, ascii]

theorem temp_ext {p r : Bytes} (h : ObjectPath p) (hr : (47 : UInt8) ∉ r) :
    extension (tempName p r) = some (ascii "part") := by
  obtain ⟨k, id, _, h2⟩ := object_fileName h
  have ht : (47 : UInt8) ∉ 46 :: (r ++ ascii ".part") := by
    intro hm
    rcases List.mem_cons.mp hm with hm | hm
    · cases hm
    · rcases List.mem_append.mp hm with hm | hm
      · exact hr hm
      · revert hm; decide
  have he : objectName k id ++ 46 :: (r ++ ascii ".part") =
      (objectName k id ++ 46 :: r) ++ 46 :: ascii "part" := by
    rw [List.append_assoc]
    rfl
  unfold extension tempName
  rw [h2 _ ht, Option.bind_some, he]
  unfold atDot
  rw [split_last _ (by decide), List.getLast?_append, List.dropLast_concat]
  have h5 : split 46 (objectName k id ++ 46 :: r) = id.display :: split 46 (k.ext ++ 46 :: r) := by
    unfold objectName
    rw [List.append_assoc, List.cons_append, C50.split_at (C50.plain id).1]
  rw [h5]
  obtain ⟨y, l, hy⟩ := List.exists_cons_of_ne_nil (split_ne 46 (k.ext ++ 46 :: r))
  rw [hy]
  obtain ⟨c, cs, hc⟩ := List.exists_cons_of_ne_nil (C50.display_ne_nil id)
  simp [List.intercalate, hc]

/-! ## Jobs -/

variable {J : Type} [DecidableEq J]

/-- The jobs are about objects; each has a temporary file of its own, named at random, that is not
there yet; what is moved has been written and is moved once. -/
structure Ok (jobs : J → Job) (fs : Fs) : Prop where
  objects : ∀ j, ObjectPath (jobs j).dst
  temps : ∀ j, ∃ r, (47 : UInt8) ∉ r ∧ (jobs j).temp = tempName (jobs j).dst r
  apart : ∀ j k, (jobs j).temp = (jobs k).temp → j = k
  absent : ∀ j, fs.names (jobs j).temp = none
  source : ∀ j a, (jobs j).kind.src = some a → fs.get a = some (jobs j).whole ∧
    (∀ k, a ≠ (jobs k).dst) ∧ (∀ k, a ≠ (jobs k).temp) ∧ ∀ k, (jobs k).kind.src = some a → k = j
  links : ∀ p q i, fs.names p = some i → fs.names q = some i → p = q

omit [DecidableEq J] in
theorem Ok.dst_ne_temp {jobs : J → Job} {fs : Fs} (h : Ok jobs fs) (j k : J) : (jobs j).dst ≠ (jobs k).temp := by
  intro e
  obtain ⟨r, hr, ht⟩ := h.temps k
  apply object_ext (h.objects j)
  rw [e, ht]
  exact temp_ext (h.objects k) hr

/-- What may be under a name. -/
def Fate (jobs : J → Job) (fs : Fs) (s : State J) (p : Bytes) : Prop :=
  s.fs.get p = fs.get p ∨
  (∃ j, (jobs j).dst = p ∧ (jobs j).kind ≠ .remove ∧ s.fs.get p = some (jobs j).whole) ∨
  (s.fs.get p = none ∧ ∃ j, s.pc j ≠ .ready ∧ (((jobs j).kind = .remove ∧ (jobs j).dst = p) ∨ (jobs j).kind.src = some p))

def NotWriting (pc : Pc) : Prop := ∀ i w, pc ≠ .writing i w

structure Inv (jobs : J → Job) (fs : Fs) (s : State J) : Prop where
  links : ∀ p q i, s.fs.names p = some i → s.fs.names q = some i → p = q
  writing : ∀ j i w, s.pc j = .writing i w → s.fs.names (jobs j).temp = some i ∧ s.fs.data i = w ∧ w <+: (jobs j).whole ∧
    (jobs j).kind.copies = true
  idle : ∀ j, NotWriting (s.pc j) → s.fs.names (jobs j).temp = none
  fate : ∀ p, (∀ j, p ≠ (jobs j).temp) → Fate jobs fs s p
  source : ∀ j a, (jobs j).kind.src = some a → s.pc j ≠ .done → s.fs.get a = some (jobs j).whole
  sole : ∀ j, (∀ k, (jobs k).dst = (jobs j).dst → k = j) →
    (∀ i, s.pc j = .moved i ∨ s.pc j = .synced i → s.fs.names (jobs j).dst = some i) ∧
    (∀ i, s.pc j = .synced i → s.fs.durable i = true) ∧
    ((jobs j).kind ≠ .remove → (∃ i, s.pc j = .moved i ∨ s.pc j = .synced i) ∨ s.pc j = .done →
      s.fs.get (jobs j).dst = some (jobs j).whole) ∧
    ((jobs j).kind = .remove → s.pc j = .done → s.fs.get (jobs j).dst = none)

theorem get_create {s : Fs} {t : Bytes} {i : Nat} (hi : ∀ p, s.names p ≠ some i) {p : Bytes} (hp : p ≠ t) :
    (write (setName s t (some i)) i []).get p = s.get p := by
  simp only [Fs.get, write, setName, if_neg hp]
  cases h : s.names p with
  | none => rfl
  | some k =>
    have : k ≠ i := fun e => hi p (by rw [h, e])
    simp [this]

theorem get_write {s : Fs} {i : Nat} {x p : Bytes} (hp : s.names p ≠ some i) : (write s i x).get p = s.get p := by
  simp only [Fs.get, write]
  cases h : s.names p with
  | none => rfl
  | some k =>
    have : k ≠ i := fun e => hp (by rw [h, e])
    simp [this]

theorem get_sync (s : Fs) (i : Nat) (p : Bytes) : (Files.sync s i).get p = s.get p := rfl

theorem get_setName {s : Fs} {t p : Bytes} : (setName s t none).get p = if p = t then none else s.get p := by
  simp only [Fs.get, setName]
  split <;> rfl

theorem get_rename {s : Fs} {a b p : Bytes} :
    (rename s a b).get p = if p = b then s.get a else if p = a then none else s.get p := by
  simp only [Fs.get, rename]
  split
  · rfl
  · split <;> rfl

theorem at_self (pc : J → Pc) (j : J) (v : Pc) : at_ pc j v j = v := by simp [at_]

theorem at_other (pc : J → Pc) {j k : J} (v : Pc) (h : k ≠ j) : at_ pc j v k = pc k := by simp [at_, h]

variable {jobs : J → Job} {fs : Fs}

/-- What a step does not change stays true: the names of temporary files of other jobs, and what is
under other names. -/
theorem inv_start (hO : Ok jobs fs) : Inv jobs fs ⟨fs, fun _ => .ready⟩ where
  links := hO.links
  writing := fun _ _ _ h => by cases h
  idle := fun j _ => hO.absent j
  fate := fun _ _ => .inl rfl
  source := fun j a h _ => (hO.source j a h).1
  sole := fun j _ => ⟨fun _ h => (by rcases h with h | h <;> cases h), fun _ h => (by cases h),
    fun _ h => (by rcases h with ⟨_, h | h⟩ | h <;> cases h), fun _ h => (by cases h)⟩

omit [DecidableEq J] in
/-- A job whose state changes in no way that matters. -/
theorem fate_same {s s' : State J} {p : Bytes} (h : Fate jobs fs s p) (hg : s'.fs.get p = s.fs.get p)
    (hr : ∀ j, s.pc j ≠ .ready → s'.pc j ≠ .ready) : Fate jobs fs s' p := by
  rcases h with h | ⟨j, h1, h2, h3⟩ | ⟨h1, j, h2, h3⟩
  · exact .inl (hg.trans h)
  · exact .inr (.inl ⟨j, h1, h2, hg.trans h3⟩)
  · exact .inr (.inr ⟨hg.trans h1, j, hr j h2, h3⟩)

theorem ready_mono {pc : J → Pc} {j : J} {v : Pc} (hv : v ≠ .ready) : ∀ k, pc k ≠ .ready → at_ pc j v k ≠ .ready := by
  intro k hk
  unfold at_
  split
  · exact hv
  · exact hk

theorem inv_create (hO : Ok jobs fs) {s : State J} (h : Inv jobs fs s) {j : J} {i : Nat}
    (hc : (jobs j).kind.copies = true) (hr : s.pc j = .ready) (hn : s.fs.names (jobs j).temp = none) (hi : ∀ p, s.fs.names p ≠ some i) :
    Inv jobs fs ⟨write (setName s.fs (jobs j).temp (some i)) i [], at_ s.pc j (.writing i [])⟩ := by
  have hname : ∀ p, p ≠ (jobs j).temp → (write (setName s.fs (jobs j).temp (some i)) i []).names p = s.fs.names p := by
    intro p hp
    simp [write, setName, hp]
  have hself : (write (setName s.fs (jobs j).temp (some i)) i []).names (jobs j).temp = some i := by
    simp [write, setName]
  refine ⟨?_, ?_, ?_, ?_, ?_, ?_⟩
  · intro p q k hp hq
    by_cases h1 : p = (jobs j).temp <;> by_cases h2 : q = (jobs j).temp
    · rw [h1, h2]
    · subst h1
      rw [hself] at hp
      rw [hname q h2] at hq
      cases hp
      exact absurd hq (hi q)
    · subst h2
      rw [hself] at hq
      rw [hname p h1] at hp
      cases hq
      exact absurd hp (hi p)
    · rw [hname p h1] at hp
      rw [hname q h2] at hq
      exact h.links p q k hp hq
  · intro k i' w hk
    by_cases hkj : k = j
    · subst hkj
      simp only [at_self] at hk
      cases hk
      exact ⟨hself, by simp [write], List.nil_prefix, hc⟩
    · dsimp only at hk
      rw [at_other _ _ hkj] at hk
      obtain ⟨h1, h2, h3⟩ := h.writing k i' w hk
      have ht : (jobs k).temp ≠ (jobs j).temp := fun e => hkj (hO.apart k j e)
      refine ⟨by rw [hname _ ht]; exact h1, ?_, h3⟩
      have : i' ≠ i := fun e => hi _ (by rw [h1, e])
      simp [write, setName, this, h2]
  · intro k hk
    by_cases hkj : k = j
    · subst hkj
      simp only [at_self] at hk
      exact absurd rfl (hk i [])
    · dsimp only at hk
      rw [at_other _ _ hkj] at hk
      have ht : (jobs k).temp ≠ (jobs j).temp := fun e => hkj (hO.apart k j e)
      rw [hname _ ht]
      exact h.idle k hk
  · intro p hp
    exact fate_same (h.fate p hp) (get_create hi (hp j)) (ready_mono (by simp))
  · intro k a ha hk
    have : s.pc k ≠ .done := by
      by_cases hkj : k = j
      · subst hkj; rw [hr]; simp
      · dsimp only at hk
        rwa [at_other _ _ hkj] at hk
    rw [get_create hi ((hO.source k a ha).2.2.1 j)]
    exact h.source k a ha this
  · intro k hk
    obtain ⟨g1, g2, g3, g4⟩ := h.sole k hk
    have hd := hO.dst_ne_temp k j
    by_cases hkj : k = j
    · subst hkj
      simp [at_self]
    · simp only [at_other _ _ hkj, get_create hi hd, hname _ hd]
      refine ⟨g1, ?_, g3, g4⟩
      intro i' hi'
      have h1 := g1 i' (.inr hi')
      have : i' ≠ i := fun e => hi _ (by rw [h1, e])
      simp [write, setName, this, g2 i' hi']

theorem inv_append (hO : Ok jobs fs) {s : State J} (h : Inv jobs fs s) {j : J} {i : Nat} {w x : Bytes}
    (hw : s.pc j = .writing i w) (hx : w ++ x <+: (jobs j).whole) :
    Inv jobs fs ⟨write s.fs i (s.fs.data i ++ x), at_ s.pc j (.writing i (w ++ x))⟩ := by
  obtain ⟨h1, h2, h3⟩ := h.writing j i w hw
  have hother : ∀ p, p ≠ (jobs j).temp → s.fs.names p ≠ some i := fun p hp e => hp (h.links _ _ _ e h1)
  refine ⟨h.links, ?_, ?_, ?_, ?_, ?_⟩
  · intro k i' w' hk
    by_cases hkj : k = j
    · subst hkj
      simp only [at_self] at hk
      cases hk
      exact ⟨h1, by simp [write, h2], hx, h3.2⟩
    · dsimp only at hk
      rw [at_other _ _ hkj] at hk
      obtain ⟨g1, g2, g3⟩ := h.writing k i' w' hk
      refine ⟨g1, ?_, g3⟩
      have : i' ≠ i := by
        rintro rfl
        exact hkj (hO.apart k j (h.links _ _ _ g1 h1))
      simp [write, this, g2]
  · intro k hk
    by_cases hkj : k = j
    · subst hkj
      simp only [at_self] at hk
      exact absurd rfl (hk i _)
    · dsimp only at hk
      rw [at_other _ _ hkj] at hk
      exact h.idle k hk
  · intro p hp
    exact fate_same (h.fate p hp) (get_write (hother p (hp j))) (ready_mono (by simp))
  · intro k a ha hk
    have : s.pc k ≠ .done := by
      by_cases hkj : k = j
      · subst hkj; rw [hw]; simp
      · dsimp only at hk
        rwa [at_other _ _ hkj] at hk
    rw [get_write (hother a ((hO.source k a ha).2.2.1 j))]
    exact h.source k a ha this
  · intro k hk
    obtain ⟨g1, g2, g3, g4⟩ := h.sole k hk
    have hd := hother _ (hO.dst_ne_temp k j)
    by_cases hkj : k = j
    · subst hkj
      simp [at_self]
    · simp only [at_other _ _ hkj, get_write hd]
      refine ⟨g1, ?_, g3, g4⟩
      intro i' hi'
      have h1 := g1 i' (.inr hi')
      have : i' ≠ i := fun e => hd (by rw [h1, e])
      simp [write, this, g2 i' hi']

/-- Renaming a file to the name of an object, by a job that has written it whole. -/
theorem inv_rename (hO : Ok jobs fs) {s : State J} (h : Inv jobs fs s) {j : J} {a : Bytes} {v : Pc}
    (hk : (jobs j).kind ≠ .remove) (hg : s.fs.get a = some (jobs j).whole) (hd : s.pc j ≠ .done)
    (ha : ((jobs j).temp = a ∧ (∃ i, s.fs.names a = some i ∧ v = .moved i)) ∨
      ((jobs j).kind.src = some a ∧ (∀ k, a ≠ (jobs k).temp) ∧ NotWriting (s.pc j) ∧ v = .done)) :
    Inv jobs fs ⟨rename s.fs a (jobs j).dst, at_ s.pc j v⟩ := by
  have hv : v ≠ .ready := by
    rcases ha with ⟨_, i, _, rfl⟩ | ⟨_, _, _, rfl⟩ <;> simp
  have hvw : NotWriting v := by
    intro i w
    rcases ha with ⟨_, i, _, rfl⟩ | ⟨_, _, _, rfl⟩ <;> simp
  have hda : ∀ k, (jobs k).dst ≠ a := by
    intro k
    rcases ha with ⟨rfl, _⟩ | ⟨ha, _⟩
    · exact hO.dst_ne_temp k j
    · exact fun e => (hO.source j a ha).2.1 k e.symm
  have htemp : ∀ k, (jobs k).temp ≠ a → (rename s.fs a (jobs j).dst).names (jobs k).temp = s.fs.names (jobs k).temp := by
    intro k hk
    simp only [rename]
    rw [if_neg (fun e => hO.dst_ne_temp j k e.symm), if_neg hk]
  have hta : ∀ k, k ≠ j → (jobs k).temp ≠ a := by
    intro k hkj e
    rcases ha with ⟨rfl, _⟩ | ⟨_, h, _⟩
    · exact hkj (hO.apart k j e)
    · exact h k e.symm
  have hsrc : ∀ k b, (jobs k).kind.src = some b → k ≠ j → b ≠ a ∧ b ≠ (jobs j).dst := by
    intro k b hb hkj
    refine ⟨?_, (hO.source k b hb).2.1 j⟩
    rintro rfl
    rcases ha with ⟨e, _⟩ | ⟨ha, _⟩
    · exact (hO.source k b hb).2.2.1 j e.symm
    · exact hkj ((hO.source j b ha).2.2.2 k hb)
  refine ⟨?_, ?_, ?_, ?_, ?_, ?_⟩
  · intro p q k hp hq
    simp only [rename] at hp hq
    split at hp
    · rename_i hpe
      split at hq
      · rename_i hqe; rw [hpe, hqe]
      · split at hq
        · cases hq
        · rename_i _ hqa
          exact absurd (h.links _ _ _ hq hp) hqa
    · split at hp
      · cases hp
      · rename_i _ hpa
        split at hq
        · exact absurd (h.links _ _ _ hp hq) hpa
        · split at hq
          · cases hq
          · exact h.links p q k hp hq
  · intro k i w hk
    by_cases hkj : k = j
    · subst hkj
      simp only [at_self] at hk
      exact absurd hk (hvw i w)
    · dsimp only at hk
      rw [at_other _ _ hkj] at hk
      obtain ⟨g1, g2, g3⟩ := h.writing k i w hk
      exact ⟨by rw [htemp k (hta k hkj)]; exact g1, g2, g3⟩
  · intro k hk
    by_cases hkj : k = j
    · subst hkj
      rcases ha with ⟨rfl, _⟩ | ⟨_, hat, hnw, _⟩
      · simp only [rename]
        rw [if_neg (fun e => hO.dst_ne_temp k k e.symm), if_pos trivial]
      · rw [htemp k (fun e => hat k e.symm)]
        exact h.idle k hnw
    · dsimp only at hk
      rw [at_other _ _ hkj] at hk
      rw [htemp k (hta k hkj)]
      exact h.idle k hk
  · intro p hp
    by_cases h1 : p = (jobs j).dst
    · subst h1
      refine .inr (.inl ⟨j, rfl, hk, ?_⟩)
      rw [get_rename, if_pos rfl, hg]
    · by_cases h2 : p = a
      · subst h2
        refine .inr (.inr ⟨by rw [get_rename, if_neg h1, if_pos rfl], j, by simp only [at_self]; exact hv, ?_⟩)
        rcases ha with ⟨e, _⟩ | ⟨ha, _⟩
        · exact absurd e.symm (hp j)
        · exact .inr ha
      · exact fate_same (h.fate p hp) (by rw [get_rename, if_neg h1, if_neg h2]) (ready_mono hv)
  · intro k b hb hkd
    by_cases hkj : k = j
    · subst hkj
      dsimp only at hkd
      simp only [at_self] at hkd
      rcases ha with ⟨rfl, _⟩ | ⟨_, _, _, rfl⟩
      · have hbt := (hO.source k b hb).2.2.1 k
        have hbd := (hO.source k b hb).2.1 k
        rw [get_rename, if_neg hbd, if_neg hbt]
        exact h.source k b hb hd
      · exact absurd rfl hkd
    · dsimp only at hkd
      rw [at_other _ _ hkj] at hkd
      obtain ⟨e1, e2⟩ := hsrc k b hb hkj
      rw [get_rename, if_neg e2, if_neg e1]
      exact h.source k b hb hkd
  · intro k hsole
    by_cases hkj : k = j
    · subst hkj
      simp only [at_self]
      have hgd : (rename s.fs a (jobs k).dst).get (jobs k).dst = some (jobs k).whole := by
        rw [get_rename, if_pos rfl, hg]
      refine ⟨?_, ?_, fun _ _ => hgd, fun hr => absurd hr hk⟩
      · intro i hi
        rcases ha with ⟨_, i', hi', rfl⟩ | ⟨_, _, _, rfl⟩
        · simp only [rename, if_pos]
          rcases hi with hi | hi <;> cases hi
          exact hi'
        · rcases hi with hi | hi <;> cases hi
      · intro i hi
        rcases ha with ⟨_, i', hi', rfl⟩ | ⟨_, _, _, rfl⟩ <;> cases hi
    · obtain ⟨g1, g2, g3, g4⟩ := h.sole k hsole
      have hne : (jobs k).dst ≠ (jobs j).dst := fun e => hkj (hsole j e.symm).symm
      simp only [at_other _ _ hkj, get_rename, if_neg hne, if_neg (hda k)]
      refine ⟨?_, g2, g3, g4⟩
      intro i hi
      simp only [rename]
      rw [if_neg hne, if_neg (hda k)]
      exact g1 i hi

/-- Taking a name away: of the temporary file by a job that fails, of the source by one that has moved
it, or of the object by one that removes it. -/
theorem inv_unlink (hO : Ok jobs fs) {s : State J} (h : Inv jobs fs s) {j : J} {a : Bytes} {v : Pc} (hd : s.pc j ≠ .done)
    (ha : ((jobs j).temp = a ∧ v = .failed) ∨ ((jobs j).kind.src = some a ∧ NotWriting (s.pc j) ∧ v = .done ∧
        ∃ i, s.pc j = .synced i) ∨
      ((jobs j).dst = a ∧ (jobs j).kind = .remove ∧ NotWriting (s.pc j) ∧ v = .done)) :
    Inv jobs fs ⟨setName s.fs a none, at_ s.pc j v⟩ := by
  have hv : v ≠ .ready := by
    rcases ha with ⟨_, rfl⟩ | ⟨_, _, rfl, _⟩ | ⟨_, _, _, rfl⟩ <;> simp
  have hvw : NotWriting v := by
    intro i w
    rcases ha with ⟨_, rfl⟩ | ⟨_, _, rfl, _⟩ | ⟨_, _, _, rfl⟩ <;> simp
  have hta : ∀ k, k ≠ j → (jobs k).temp ≠ a := by
    intro k hkj e
    rcases ha with ⟨rfl, _⟩ | ⟨hs, _⟩ | ⟨rfl, _⟩
    · exact hkj (hO.apart k j e)
    · exact (hO.source j a hs).2.2.1 k e.symm
    · exact hO.dst_ne_temp j k e.symm
  have hname : ∀ p, p ≠ a → (setName s.fs a none).names p = s.fs.names p := fun p hp => by simp [setName, hp]
  refine ⟨?_, ?_, ?_, ?_, ?_, ?_⟩
  · intro p q k hp hq
    simp only [setName] at hp hq
    split at hp
    · cases hp
    · split at hq
      · cases hq
      · exact h.links p q k hp hq
  · intro k i w hk
    by_cases hkj : k = j
    · subst hkj
      simp only [at_self] at hk
      exact absurd hk (hvw i w)
    · dsimp only at hk
      rw [at_other _ _ hkj] at hk
      obtain ⟨g1, g2, g3⟩ := h.writing k i w hk
      exact ⟨by rw [hname _ (hta k hkj)]; exact g1, g2, g3⟩
  · intro k hk
    by_cases hka : (jobs k).temp = a
    · simp [setName, hka]
    · rw [hname _ hka]
      by_cases hkj : k = j
      · subst hkj
        rcases ha with ⟨e, _⟩ | ⟨_, hnw, _⟩ | ⟨_, _, hnw, _⟩
        · exact absurd e hka
        · exact h.idle k hnw
        · exact h.idle k hnw
      · dsimp only at hk
        rw [at_other _ _ hkj] at hk
        exact h.idle k hk
  · intro p hp
    by_cases h1 : p = a
    · subst h1
      refine .inr (.inr ⟨by rw [get_setName, if_pos rfl], j, by simp only [at_self]; exact hv, ?_⟩)
      rcases ha with ⟨e, _⟩ | ⟨hs, _⟩ | ⟨e, hr, _⟩
      · exact absurd e.symm (hp j)
      · exact .inr hs
      · exact .inl ⟨hr, e⟩
    · exact fate_same (h.fate p hp) (by rw [get_setName, if_neg h1]) (ready_mono hv)
  · intro k b hb hkd
    obtain ⟨_, o1, o2, o3⟩ := hO.source k b hb
    by_cases hkj : k = j
    · subst hkj
      dsimp only at hkd
      simp only [at_self] at hkd
      rcases ha with ⟨rfl, _⟩ | ⟨_, _, rfl, _⟩ | ⟨_, _, _, rfl⟩
      · rw [get_setName, if_neg (o2 k)]
        exact h.source k b hb hd
      · exact absurd rfl hkd
      · exact absurd rfl hkd
    · dsimp only at hkd
      rw [at_other _ _ hkj] at hkd
      rw [get_setName, if_neg]
      · exact h.source k b hb hkd
      · rintro rfl
        rcases ha with ⟨e, _⟩ | ⟨hs, _⟩ | ⟨e, _⟩
        · exact o2 j e.symm
        · exact hkj (o3 j hs).symm
        · exact o1 j e.symm
  · intro k hsole
    obtain ⟨g1, g2, g3, g4⟩ := h.sole k hsole
    by_cases hkj : k = j
    · subst hkj
      simp only [at_self]
      rcases ha with ⟨_, rfl⟩ | ⟨hs, _, rfl, hp⟩ | ⟨rfl, hr, _, rfl⟩
      · exact ⟨by simp, by simp, by simp, by simp⟩
      · have hne : (jobs k).dst ≠ a := fun e => (hO.source k a hs).2.1 k e.symm
        refine ⟨by simp, by simp, fun hr _ => ?_, fun hr => ?_⟩
        · rw [get_setName, if_neg hne]
          obtain ⟨i, hi⟩ := hp
          exact g3 hr (.inl ⟨i, .inr hi⟩)
        · rw [hr] at hs; cases hs
      · exact ⟨by simp, by simp, fun h => absurd hr h, fun _ _ => by rw [get_setName, if_pos rfl]⟩
    · have hne : (jobs k).dst ≠ a := by
        intro e
        rcases ha with ⟨rfl, _⟩ | ⟨hs, _⟩ | ⟨rfl, _⟩
        · exact hO.dst_ne_temp k j e
        · exact (hO.source j a hs).2.1 k e.symm
        · exact hkj (hsole j e.symm).symm
      simp only [at_other _ _ hkj, get_setName, if_neg hne, hname _ hne]
      exact ⟨g1, g2, g3, g4⟩

/-- Steps that change no file. -/
theorem inv_quiet {s : State J} (h : Inv jobs fs s) {j : J} {v : Pc} {fs' : Fs} (hn : fs'.names = s.fs.names)
    (hdata : fs'.data = s.fs.data) (hdur : ∀ i, s.fs.durable i = true → fs'.durable i = true)
    (hv : v ≠ .ready) (hnw : NotWriting (s.pc j)) (hvw : NotWriting v) (hd : s.pc j ≠ .done)
    (hm : ∀ i, v = .moved i → False) (hs : ∀ i, v = .synced i → s.pc j = .moved i ∧ fs'.durable i = true)
    (hdone : v = .done → (jobs j).kind = .copy ∧ ∃ i, s.pc j = .synced i) :
    Inv jobs fs ⟨fs', at_ s.pc j v⟩ := by
  have hget : ∀ p, fs'.get p = s.fs.get p := fun p => by simp [Fs.get, hn, hdata]
  refine ⟨?_, ?_, ?_, ?_, ?_, ?_⟩
  · rw [hn]; exact h.links
  · intro k i w hk
    by_cases hkj : k = j
    · subst hkj
      simp only [at_self] at hk
      exact absurd hk (hvw i w)
    · dsimp only at hk
      rw [at_other _ _ hkj] at hk
      dsimp only
      rw [hn, hdata]
      exact h.writing k i w hk
  · intro k hk
    dsimp only
    rw [hn]
    by_cases hkj : k = j
    · subst hkj
      exact h.idle k hnw
    · dsimp only at hk
      rw [at_other _ _ hkj] at hk
      exact h.idle k hk
  · intro p hp
    exact fate_same (h.fate p hp) (hget p) (ready_mono hv)
  · intro k b hb hkd
    dsimp only
    rw [hget]
    refine h.source k b hb ?_
    by_cases hkj : k = j
    · subst hkj; exact hd
    · dsimp only at hkd
      rwa [at_other _ _ hkj] at hkd
  · intro k hsole
    obtain ⟨g1, g2, g3, g4⟩ := h.sole k hsole
    by_cases hkj : k = j
    · subst hkj
      simp only [at_self, hget, hn]
      refine ⟨?_, fun i hi => (hs i hi).2, ?_, ?_⟩
      · rintro i (hi | hi)
        · exact absurd hi (hm i)
        · exact g1 i (.inl (hs i hi).1)
      · rintro hr (⟨i, hi | hi⟩ | hi)
        · exact absurd hi (hm i)
        · exact g3 hr (.inl ⟨i, .inl (hs i hi).1⟩)
        · obtain ⟨_, i, hi⟩ := hdone hi
          exact g3 hr (.inl ⟨i, .inr hi⟩)
      · intro hr hi
        rw [(hdone hi).1] at hr
        cases hr
    · simp only [at_other _ _ hkj, hget, hn]
      exact ⟨g1, fun i hi => hdur i (g2 i hi), g3, g4⟩

theorem inv (hO : Ok jobs fs) {s : State J} (h : Reachable jobs fs s) : Inv jobs fs s := by
  induction h with
  | refl => exact inv_start hO
  | @tail s s' _ hs ih =>
    cases hs with
    | create j i hc hr hn hi => exact inv_create hO ih hc hr hn hi
    | append j i w x hw hx => exact inv_append hO ih hw hx
    | persist j i hw =>
      obtain ⟨h1, h2, _, hc⟩ := ih.writing j i _ hw
      refine inv_rename hO ih ?_ (by simp [Fs.get, h1, h2]) (by rw [hw]; simp) (.inl ⟨rfl, i, h1, rfl⟩)
      intro e; rw [e] at hc; cases hc
    | sync j i hw =>
      refine inv_quiet ih rfl rfl ?_ (by simp) ?_ (by simp [NotWriting]) (by rw [hw]; simp) (by simp) ?_ (by simp)
      · intro k hk
        simp [Files.sync, hk]
      · rw [hw]; simp [NotWriting]
      · intro k hk
        cases hk
        exact ⟨hw, by simp [Files.sync]⟩
    | finish j i hk hw =>
      refine inv_quiet ih rfl rfl (fun _ h => h) (by simp) ?_ (by simp [NotWriting]) (by rw [hw]; simp) (by simp) (by simp)
        (fun _ => ⟨hk, i, hw⟩)
      rw [hw]; simp [NotWriting]
    | unlink j i src hk hw =>
      refine inv_unlink hO ih (by rw [hw]; simp) (.inr (.inl ⟨by rw [hk]; rfl, ?_, rfl, i, hw⟩))
      rw [hw]; simp [NotWriting]
    | move j src hk hr =>
      have hs : (jobs j).kind.src = some src := by rw [hk]; rfl
      refine inv_rename hO ih (by rw [hk]; simp) (ih.source j src hs (by rw [hr]; simp)) (by rw [hr]; simp)
        (.inr ⟨hs, (hO.source j src hs).2.2.1, ?_, rfl⟩)
      rw [hr]; simp [NotWriting]
    | remove j hk hr =>
      refine inv_unlink hO ih (by rw [hr]; simp) (.inr (.inr ⟨rfl, hk, ?_, rfl⟩))
      rw [hr]; simp [NotWriting]
    | fail j i w hw => exact inv_unlink hO ih (by rw [hw]; simp) (.inl ⟨rfl, rfl⟩)
    | stop j hnw hnd =>
      exact inv_quiet ih rfl rfl (fun _ h => h) (by simp) hnw (by simp [NotWriting]) hnd (by simp) (by simp) (by simp)

/-! ## What is found -/

/-- Whenever the programs are killed, what is under any name but those of temporary files is what was
there before, or all that some job was to put there; or nothing, if a job was to remove it or to move
it away. -/
theorem atomic (hO : Ok jobs fs) {s : State J} (h : Reachable jobs fs s) {p : Bytes}
    (hp : ∀ j, p ≠ (jobs j).temp) :
    s.fs.get p = fs.get p ∨
    (∃ j, (jobs j).dst = p ∧ (jobs j).kind ≠ .remove ∧ s.fs.get p = some (jobs j).whole) ∨
    (s.fs.get p = none ∧ ∃ j, ((jobs j).kind = .remove ∧ (jobs j).dst = p) ∨ (jobs j).kind.src = some p) := by
  rcases (inv hO h).fate p hp with h | h | ⟨h1, j, _, h2⟩
  · exact .inl h
  · exact .inr (.inl h)
  · exact .inr (.inr ⟨h1, j, h2⟩)

/-- What a listing shows is an object that was there before, or one that a job was to put there, and it
is all there. -/
theorem listed (hO : Ok jobs fs) {s : State J} (h : Reachable jobs fs s) {dir p : Bytes}
    (hl : Listed s.fs dir p) :
    ∃ x, s.fs.get p = some x ∧ (fs.get p = some x ∨ ∃ j, (jobs j).dst = p ∧ (jobs j).kind ≠ .remove ∧ x = (jobs j).whole) := by
  obtain ⟨_, h1, h2⟩ := hl
  have hp : ∀ j, p ≠ (jobs j).temp := by
    rintro j rfl
    obtain ⟨r, hr, ht⟩ := hO.temps j
    rw [ht] at h2
    exact h2 (temp_ext (hO.objects j) hr)
  obtain ⟨i, hi⟩ := Option.ne_none_iff_exists'.mp h1
  have hx : s.fs.get p = some (s.fs.data i) := by simp [Fs.get, hi]
  refine ⟨_, hx, ?_⟩
  rcases atomic hO h hp with h | ⟨j, h3, h4, h5⟩ | ⟨h3, _⟩
  · exact .inl (by rw [← h, hx])
  · refine .inr ⟨j, h3, h4, ?_⟩
    rw [hx] at h5
    exact Option.some.inj h5
  · rw [hx] at h3; cases h3

/-- An object that is there shows in the listing of its directory. -/
theorem shown (fs : Fs) {k : Shelf} {id : ObjectId} {x : Bytes} (h : fs.get (k.dir ++ objectName k id) = some x) :
    Listed fs k.dir (k.dir ++ objectName k id) := by
  refine ⟨List.prefix_append _ _, ?_, ?_⟩
  · intro hn
    simp [Fs.get, hn] at h
  · obtain ⟨d, hd, _⟩ := C50.dir_eq k
    rw [hd, List.append_assoc]
    exact object_ext (.under d k id)

/-- A job that is done, if no other is about the same object, has put it there or removed it. -/
theorem finished (hO : Ok jobs fs) {s : State J} (h : Reachable jobs fs s) {j : J}
    (hsole : ∀ k, (jobs k).dst = (jobs j).dst → k = j) (hd : s.pc j = .done) :
    s.fs.get (jobs j).dst = if (jobs j).kind = .remove then none else some (jobs j).whole := by
  obtain ⟨_, _, g3, g4⟩ := (inv hO h).sole j hsole
  split
  · rename_i hk
    exact g4 hk hd
  · rename_i hk
    exact g3 hk (.inr hd)

/-- A file that is being moved is never lost: it is where it was, or where it is going. -/
theorem not_lost (hO : Ok jobs fs) {s : State J} (h : Reachable jobs fs s) {j : J} {a : Bytes}
    (ha : (jobs j).kind.src = some a) (hsole : ∀ k, (jobs k).dst = (jobs j).dst → k = j) :
    s.fs.get a = some (jobs j).whole ∨ s.fs.get (jobs j).dst = some (jobs j).whole := by
  by_cases hd : s.pc j = .done
  · right
    rw [finished hO h hsole hd, if_neg]
    intro hk
    rw [hk] at ha; cases ha
  · exact .inl ((inv hO h).source j a ha hd)

/-- Once a job that copies has synced its file, it is there even after the power failed. -/
theorem synced_survives (hO : Ok jobs fs) {s : State J} (h : Reachable jobs fs s) {j : J} {i : Nat}
    (hsole : ∀ k, (jobs k).dst = (jobs j).dst → k = j) (hd : s.pc j = .synced i) {fs' : Fs} (hp : PowerLoss s.fs fs') :
    fs'.get (jobs j).dst = some (jobs j).whole := by
  obtain ⟨g1, g2, g3, _⟩ := (inv hO h).sole j hsole
  have hk : (jobs j).kind ≠ .remove := by
    intro hk
    have key : ∀ {s : State J}, Reachable jobs fs s → ∀ i, s.pc j ≠ .moved i ∧ s.pc j ≠ .synced i := by
      intro s h
      induction h with
      | refl => exact fun i => ⟨by simp, by simp⟩
      | @tail s s' hr hs ih =>
        intro i
        have hold : ∀ {k : J} {v : Pc}, (k = j → v ≠ .moved i ∧ v ≠ .synced i) →
            at_ s.pc k v j ≠ .moved i ∧ at_ s.pc k v j ≠ .synced i := by
          intro k v hv
          unfold at_
          split
          · rename_i e
            exact hv e.symm
          · exact ih i
        cases hs with
        | persist k i' hw =>
          refine hold ?_
          rintro rfl
          have := ((inv hO hr).writing _ _ _ hw).2.2.2
          rw [hk] at this; cases this
        | sync k i' hw =>
          refine hold ?_
          rintro rfl
          exact absurd hw (ih i').1
        | _ => exact hold (fun _ => ⟨by simp, by simp⟩)
    exact (key h i).2 hd
  have hget := g3 hk (.inl ⟨i, .inr hd⟩)
  have hn := g1 i (.inr hd)
  simp only [Fs.get, hn, Option.map_some] at hget
  simp only [Fs.get, hp.names, hn, Option.map_some, hp.kept i (g2 i hd)]
  exact hget

/-! ## Examples -/

def idE : ObjectId := ⟨List.replicate 28 7, by simp⟩

def dstE : Bytes := Shelf.pack.dir ++ objectName .pack idE

/-- Two programs that write to the same name: one copies, one moves. -/
def jobsE : Bool → Job
  | true => ⟨.copy, dstE, tempName dstE [97], [1, 2, 3]⟩
  | false => ⟨.move [120], dstE, tempName dstE [98], [4, 5]⟩

def fsE : Fs := ⟨fun p => if p = [120] then some 0 else none, fun _ => [4, 5], fun _ => false⟩

theorem temp_len (p r : Bytes) : 5 < (tempName p r).length := by
  simp [tempName, ascii]; omega

theorem okE : Ok jobsE fsE where
  objects := fun j => by
    cases j <;> exact .under (ascii "packs") .pack idE
  temps := fun j => by
    cases j
    · exact ⟨[98], by decide, rfl⟩
    · exact ⟨[97], by decide, rfl⟩
  apart := fun j k h => by
    cases j <;> cases k
    · rfl
    · exfalso; revert h; simp [jobsE, tempName]
    · exfalso; revert h; simp [jobsE, tempName]
    · rfl
  absent := fun j => by
    have := temp_len (jobsE j).dst
    have ht : ∃ r, (jobsE j).temp = tempName (jobsE j).dst r := by cases j <;> exact ⟨_, rfl⟩
    obtain ⟨r, hr⟩ := ht
    simp only [fsE]
    rw [if_neg]
    rw [hr]
    intro e
    have := temp_len (jobsE j).dst r
    rw [e] at this
    simp at this
  source := fun j a h => by
    have hlen : ∀ k, (jobsE k).dst ≠ [120] := by
      intro k e
      have h1 : (jobsE k).dst = dstE := by cases k <;> rfl
      have := congrArg List.length e
      rw [h1] at this
      simp [dstE, Shelf.dir, ascii] at this
    have hlen' : ∀ k, (jobsE k).temp ≠ [120] := by
      intro k e
      have ht : ∃ r, (jobsE k).temp = tempName (jobsE k).dst r := by cases k <;> exact ⟨_, rfl⟩
      obtain ⟨r, hr⟩ := ht
      have := temp_len (jobsE k).dst r
      rw [← hr, e] at this
      simp at this
    cases j
    · cases h
      refine ⟨rfl, fun k e => hlen k e.symm, fun k e => hlen' k e.symm, ?_⟩
      intro k hk
      cases k
      · rfl
      · cases hk
    · cases h
  links := fun p q i hp hq => by
    simp only [fsE] at hp hq
    split at hp
    · split at hq
      · rename_i h1 h2; rw [h1, h2]
      · cases hq
    · cases hp

/-- The copy is half done when its program is killed: the listing does not show it, and nothing is
under its name. -/
def halfE : State Bool :=
  ⟨write (write (setName fsE (jobsE true).temp (some 1)) 1 []) 1 ([] ++ [1]), at_ (at_ (fun _ => .ready) true (.writing 1 []))
    true (.writing 1 ([] ++ [1]))⟩

theorem halfE_reachable : Reachable jobsE fsE halfE := by
  refine Relation.ReflTransGen.tail (Relation.ReflTransGen.tail Relation.ReflTransGen.refl
    (.create _ true 1 rfl rfl (okE.absent true) ?_)) ?_
  · intro p
    simp only [fsE]
    split <;> simp
  · have hd : (write (setName fsE (jobsE true).temp (some 1)) 1 []).data 1 = [] := by simp [write]
    have := Step.append (jobs := jobsE) ⟨write (setName fsE (jobsE true).temp (some 1)) 1 [],
      at_ (fun _ => .ready) true (.writing 1 [])⟩ true 1 [] [1] (by simp [at_]) (by decide)
    dsimp only at this
    rw [hd] at this
    exact this

example : ∃ s, Reachable jobsE fsE s ∧ s.fs.get (tempName dstE [97]) = some [1] ∧
    ¬ Listed s.fs Shelf.pack.dir (tempName dstE [97]) := by
  refine ⟨halfE, halfE_reachable, ?_, ?_⟩
  · have h := (inv okE halfE_reachable).writing true 1 [1] (by simp [halfE, at_])
    have ht : (jobsE true).temp = tempName dstE [97] := rfl
    rw [← ht]
    simp [Fs.get, h.1, h.2.1]
  · intro h
    exact h.2.2 (temp_ext (.under (ascii "packs") .pack idE) (by decide))

/-- The file gets its name before it is on the disk for good: if the power fails in between, part of an
object may be found under its name. -/
theorem power_loss_tears : ∃ (jobs : Unit → Job) (fs : Fs) (s : State Unit) (fs' : Fs), Ok jobs fs ∧ Reachable jobs fs s ∧
    PowerLoss s.fs fs' ∧ fs.get (jobs ()).dst = none ∧ fs'.get (jobs ()).dst = some [1] ∧ (jobs ()).whole = [1, 2, 3] := by
  let jobs : Unit → Job := fun _ => jobsE true
  let fs : Fs := ⟨fun _ => none, fun _ => [], fun _ => false⟩
  have hO : Ok jobs fs :=
    ⟨fun _ => okE.objects true, fun _ => okE.temps true, fun _ _ _ => rfl, fun _ => rfl, fun _ _ h => (by cases h),
      fun _ _ _ h => (by cases h)⟩
  let s1 : State Unit := ⟨write (setName fs (jobs ()).temp (some 0)) 0 [], at_ (fun _ => .ready) () (.writing 0 [])⟩
  let s2 : State Unit := ⟨write s1.fs 0 (s1.fs.data 0 ++ [1, 2, 3]), at_ s1.pc () (.writing 0 ([] ++ [1, 2, 3]))⟩
  let s3 : State Unit := ⟨rename s2.fs (jobs ()).temp (jobs ()).dst, at_ s2.pc () (.moved 0)⟩
  have r1 : Step jobs ⟨fs, fun _ => .ready⟩ s1 := .create _ () 0 rfl rfl rfl (fun _ h => by cases h)
  have r2 : Step jobs s1 s2 := .append s1 () 0 [] [1, 2, 3] rfl (List.prefix_refl _)
  have r3 : Step jobs s2 s3 := .persist s2 () 0 rfl
  have hr : Reachable jobs fs s3 := ((Relation.ReflTransGen.refl.tail r1).tail r2).tail r3
  have hn : s3.fs.names (jobs ()).dst = some 0 := by
    simp only [s3, s2, s1, rename, write, setName, if_pos]
  have hdata : s3.fs.data 0 = [1, 2, 3] := rfl
  refine ⟨jobs, fs, s3, ⟨s3.fs.names, fun i => (s3.fs.data i).take 1, fun _ => true⟩, hO, hr, ⟨rfl, ?_, ?_⟩, rfl, ?_, rfl⟩
  · intro i hi
    exfalso
    have : s3.fs.durable i = (if i = 0 then false else if i = 0 then false else false) := rfl
    rw [this] at hi
    split at hi
    · cases hi
    · cases hi
  · exact fun i => List.take_prefix _ _
  · simp [Fs.get, hn, hdata]

end Backpak.C47
