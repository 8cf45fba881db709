import Verif.Model.DiffPaths
import Verif.Spec.Since
import Verif.Lemmas.RestoreMain
import Verif.Lemmas.RoundTrip
import Verif.Lemmas.Changing
import Verif.Props.C38
import Verif.Props.C10

/-!
# Looking at files without opening those that look unmodified
-/

namespace Backpak

open Spec

variable {Id : Type} [LinearOrder Id] {C : Codec Id} {R : Repo Id} {cut : Bytes → Nat}

namespace Since

theorem names_asSeen (d : Dir Bytes) : ∀ d0 : Dir Bytes, (asSeen d0 d).names.Sublist d.names := by
  induction d with
  | nil => intro _; exact .slnil
  | leaf n md l r ih =>
    intro d0
    cases l with
    | other => exact (ih d0).cons n
    | link t => exact (ih d0).cons₂ n
    | file x => exact (ih d0).cons₂ n
  | dir n md s r _ ih => intro d0; exact (ih d0).cons₂ n

theorem plain_asSeen (d : Dir Bytes) : ∀ d0 : Dir Bytes, Plain (asSeen d0 d) := by
  induction d with
  | nil => intro _; trivial
  | leaf n md l r ih =>
    intro d0
    cases l with
    | other => exact ih d0
    | link t => exact ⟨by simp, ih d0⟩
    | file x => exact ⟨by simp, ih d0⟩
  | dir n md s r ihs ih => intro d0; exact ⟨ihs _, ih d0⟩

theorem kinds_asSeen {d : Dir Bytes} (h : d.KindsOk) : ∀ d0 : Dir Bytes, (asSeen d0 d).KindsOk := by
  induction d with
  | nil => intro _; trivial
  | leaf n md l r ih =>
    intro d0
    cases l with
    | other => exact ih h.2 d0
    | link t => exact ⟨h.1, ih h.2 d0⟩
    | file x => exact ⟨h.1, ih h.2 d0⟩
  | dir n md s r ihs ih => intro d0; exact ⟨h.1, ihs h.2.1 _, ih h.2.2 d0⟩

theorem sorted_asSeen {d : Dir Bytes} (h : d.Sorted) : ∀ d0 : Dir Bytes, (asSeen d0 d).Sorted := by
  induction d with
  | nil => intro _; trivial
  | leaf n md l r ih =>
    intro d0
    have hr : ∀ m ∈ (asSeen d0 r).names, n < m := fun m hm => h.1 m ((names_asSeen r d0).subset hm)
    cases l with
    | other => exact ih h.2 d0
    | link t => exact ⟨hr, ih h.2 d0⟩
    | file x => exact ⟨hr, ih h.2 d0⟩
  | dir n md s r ihs ih =>
    intro d0
    exact ⟨fun m hm => h.1 m ((names_asSeen r d0).subset hm), ihs h.2.1 _, ih h.2.2 d0⟩

theorem subs_asSeen {d : Dir Bytes} (h : SubsSorted d) (d0 : Dir Bytes) : SubsSorted (asSeen d0 d) := by
  induction d with
  | nil => trivial
  | leaf n md l r ih => cases l <;> exact ih h
  | dir n md s r _ ih => exact ⟨sorted_asSeen h.1 _, ih h.2⟩

theorem fits_fileAt {d0 : Dir Bytes} (h : Fits d0) {n : Name} {m : Meta} {x : Bytes}
    (hf : fileAt d0 n = some (m, x)) : x.length < 2 ^ 64 := by
  induction d0 with
  | nil => cases hf
  | leaf n' md l r ih =>
    unfold fileAt at hf
    split at hf
    · cases l with
      | file y => cases hf; exact h.2.2.1
      | link _ => cases hf
      | other => cases hf
    · exact ih h.2.2.2 hf
  | dir n' md s r _ ih =>
    unfold fileAt at hf
    split at hf
    · cases hf
    · exact ih h.2.2.2.2 hf

theorem fits_subAt {d0 : Dir Bytes} (h : Fits d0) (n : Name) : Fits (subAt d0 n) := by
  induction d0 with
  | nil => trivial
  | leaf n' md l r ih =>
    unfold subAt
    split
    · trivial
    · exact ih h.2.2.2
  | dir n' md s r _ ih =>
    unfold subAt
    split
    · exact h.2.2.2.1
    · exact ih h.2.2.2.2

theorem fits_asSeen {d : Dir Bytes} (h : Fits d) : ∀ d0 : Dir Bytes, Fits d0 → Fits (asSeen d0 d) := by
  induction d with
  | nil => intro _ _; trivial
  | leaf n md l r ih =>
    intro d0 h0
    cases l with
    | other => exact ih h.2.2.2 d0 h0
    | link t => exact ⟨h.1, h.2.1, h.2.2.1, ih h.2.2.2 d0 h0⟩
    | file x =>
      refine ⟨h.1, h.2.1, ?_, ih h.2.2.2 d0 h0⟩
      cases hf : fileAt d0 n with
      | none => exact h.2.2.1
      | some e =>
        obtain ⟨m, x0⟩ := e
        simp only [LeafFits]
        split
        · exact fits_fileAt h0 hf
        · exact h.2.2.1
  | dir n md s r ihs ih =>
    intro d0 h0
    exact ⟨h.1, h.2.1, lt_of_le_of_lt (names_asSeen s _).length_le h.2.2.1, ihs h.2.2.2.1 _ (fits_subAt h0 n),
      ih h.2.2.2.2 d0 h0⟩

theorem faithful_asSeen (d : Dir Bytes) : ∀ d0 : Dir Bytes, Faithful d0 (asSeen d0 d) := by
  induction d with
  | nil => intro _; trivial
  | leaf n md l r ih =>
    intro d0
    cases l with
    | other => exact ih d0
    | link t => exact ⟨(fun x m x0 h => by cases h), ih d0⟩
    | file x =>
      refine ⟨?_, ih d0⟩
      intro y m x0 hy hf hu
      rw [hf] at hy
      simp only [if_pos hu] at hy
      cases hy
      rfl
  | dir n md s r ihs ih => intro d0; exact ⟨ihs _, ih d0⟩

theorem hasFile_fileAt {d0 : Dir Bytes} {n : Name} {m : Meta} {x : Bytes} (hf : fileAt d0 n = some (m, x)) :
    HasFile x d0 := by
  induction d0 with
  | nil => cases hf
  | leaf n' md l r ih =>
    unfold fileAt at hf
    split at hf
    · cases l with
      | file y => cases hf; exact .inl rfl
      | link _ => cases hf
      | other => cases hf
    · exact .inr (ih hf)
  | dir n' md s r _ ih =>
    unfold fileAt at hf
    split at hf
    · cases hf
    · exact .inr (ih hf)

theorem hasFile_subAt {d0 : Dir Bytes} {n : Name} {x : Bytes} (h : HasFile x (subAt d0 n)) : HasFile x d0 := by
  induction d0 with
  | nil => exact h
  | leaf n' md l r ih =>
    unfold subAt at h
    split at h
    · exact h.elim
    · exact .inr (ih h)
  | dir n' md s r _ ih =>
    unfold subAt at h
    split at h
    · exact .inl h
    · exact .inr (ih h)

theorem hasFile_asSeen {x : Bytes} (d : Dir Bytes) : ∀ d0 : Dir Bytes, HasFile x (asSeen d0 d) → HasFile x d0 ∨ HasFile x d := by
  induction d with
  | nil => intro _ h; exact h.elim
  | leaf n md l r ih =>
    intro d0 h
    cases l with
    | other => exact (ih d0 h).imp id .inr
    | link t =>
      rcases h with h | h
      · cases h
      · exact (ih d0 h).imp id .inr
    | file y =>
      rcases h with h | h
      · cases hf : fileAt d0 n with
        | none => rw [hf] at h; exact .inr (.inl h)
        | some e =>
          obtain ⟨m, x0⟩ := e
          rw [hf] at h
          simp only at h
          split at h
          · cases h; exact .inl (hasFile_fileAt hf)
          · exact .inr (.inl h)
      · exact (ih d0 h).imp id .inr
  | dir n md s r ihs ih =>
    intro d0 h
    rcases h with h | h
    · exact (ihs _ h).imp hasFile_subAt .inl
    · exact (ih d0 h).imp id .inr

/-! ## What is at a path -/

theorem child_fileAt (d0 : Dir Bytes) (n : Name) : (∀ m x, fileAt d0 n = some (m, x) ↔
    (child d0 n).map Prod.fst = some (m, some (.file x))) := by
  intro m x
  induction d0 with
  | nil => simp [fileAt, child]
  | leaf n' md l r ih =>
    unfold fileAt child
    split
    · cases l <;> simp
    · exact ih
  | dir n' md s r _ ih =>
    unfold fileAt child
    split
    · simp
    · exact ih

theorem child_subAt (d0 : Dir Bytes) (n : Name) : subAt d0 n = match child d0 n with
    | some ((_, none), s) => s
    | _ => .nil := by
  induction d0 with
  | nil => rfl
  | leaf n' md l r ih =>
    unfold subAt child
    split
    · rfl
    · exact ih
  | dir n' md s r _ ih =>
    unfold subAt child
    split
    · rfl
    · exact ih

theorem child_asSeen {d : Dir Bytes} (hd : d.names.Nodup) (d0 : Dir Bytes) (n : Name) :
    child (asSeen d0 d) n = match child d n with
      | none => none
      | some ((_, some .other), _) => none
      | some ((md, some (.link t)), s) => some ((md, some (.link t)), s)
      | some ((md, some (.file x)), s) => some ((md, some (.file (match fileAt d0 n with
        | some (m, x0) => if Unmodified md m then x0 else x
        | none => x))), s)
      | some ((md, none), s) => some ((md, none), asSeen (subAt d0 n) s) := by
  induction d with
  | nil => rfl
  | leaf n' md l r ih =>
    have ih := ih (List.nodup_cons.mp hd).2
    have hn := (List.nodup_cons.mp hd).1
    cases l with
    | other =>
      rw [asSeen, child.eq_2]
      by_cases he : n = n'
      · subst he
        rw [if_pos rfl]
        exact child_none.mpr (fun h => hn ((names_asSeen r d0).subset h))
      · rw [if_neg he]; exact ih
    | link t =>
      rw [asSeen, child, child]
      by_cases he : n = n'
      · rw [if_pos he, if_pos he]
      · rw [if_neg he, if_neg he]; exact ih
    | file x =>
      rw [asSeen, child, child]
      by_cases he : n = n'
      · subst he; rw [if_pos rfl, if_pos rfl]; rfl
      · rw [if_neg he, if_neg he]; exact ih
  | dir n' md s r _ ih =>
    have ih := ih (List.nodup_cons.mp hd).2
    rw [asSeen, child, child]
    by_cases he : n = n'
    · subst he; rw [if_pos rfl, if_pos rfl]
    · rw [if_neg he, if_neg he]; exact ih

/-- What is at a path, for those who do not open files that look unmodified. -/
theorem entry_asSeen (p : Path) : ∀ {d : Dir Bytes} (d0 : Dir Bytes), d.names.Nodup → SubsSorted d →
    entry (asSeen d0 d) p = seenAt (entry d0 p) (entry d p) := by
  induction p with
  | nil => intro d d0 _ _; simp [entry, seenAt]
  | cons n p ih =>
    intro d d0 hd hs
    cases p with
    | nil =>
      simp only [entry, child_asSeen hd]
      have hf := child_fileAt d0 n
      rcases child d n with _ | ⟨⟨md, _ | l⟩, s⟩
      · simp [seenAt]
      · simp only [Option.map_some]
        unfold seenAt
        split <;> simp_all
      · cases l with
        | other =>
          unfold seenAt
          split <;> simp_all
        | link t =>
          unfold seenAt
          split <;> simp_all
        | file x =>
          cases hfa : fileAt d0 n with
          | none =>
            simp only [Option.map_some]
            unfold seenAt
            split
            · rename_i m x0 md' x' h1 h2
              rw [(hf m x0).mpr h1] at hfa
              cases hfa
            · rename_i h; cases h
            · rfl
          | some e =>
            obtain ⟨m, x0⟩ := e
            rw [(hf m x0).mp hfa]
            simp only [Option.map_some, seenAt]
            split <;> rfl
    | cons m p =>
      simp only [entry, child_asSeen hd]
      have hsa := child_subAt d0 n
      rcases hc : child d n with _ | ⟨⟨md, _ | l⟩, s⟩
      · simp [seenAt]
      · have hsub := child_sorted hs hc
        have := ih (d := s) (subAt d0 n) (sorted_names hsub).nodup (Sorted.subs hsub)
        simp only
        rw [this, hsa]
        rcases child d0 n with _ | ⟨⟨md', _ | l'⟩, s'⟩ <;> cases p <;> simp [entry, child]
      · cases l <;> simp [seenAt]

/-! ## The walk -/

variable {PF : List Id → Bytes → Prop}

/-- What a previous tree stands for; nothing if there is none. -/
def Before (PF : List Id → Bytes → Prop) (F : Forest Id) (pt : Option (Tree Id)) (d0 : Dir Bytes) : Prop :=
  (pt = none ∧ d0 = .nil) ∨ ∃ t, pt = some t ∧ HeldIn PF F t d0

theorem before_sub {F : Forest Id} {pt : Option (Tree Id)} {d0 : Dir Bytes} (h : Before PF F pt d0) (n : Name) :
    Before PF F ((prevSubtree (pt.bind (fun t => BMap.get? t n))).bind (fun id => F.get? id)) (subAt d0 n) := by
  rcases h with ⟨rfl, rfl⟩ | ⟨t, rfl, h⟩
  · exact .inl ⟨rfl, rfl⟩
  · simp only [Option.bind_some]
    cases hg : BMap.get? t n with
    | none =>
      rcases held_sub h n with h0 | ⟨id, m, h0⟩
      · exact .inl ⟨rfl, h0⟩
      · rw [hg] at h0; cases h0
    | some x =>
      obtain ⟨c, m⟩ := x
      cases c with
      | dir id =>
        obtain ⟨u, h1, h2⟩ := made_sub h hg
        exact .inr ⟨u, h1, h2⟩
      | file cs =>
        rcases held_sub h n with h0 | ⟨id, m, h0⟩
        · exact .inl ⟨rfl, h0⟩
        · rw [hg] at h0; cases h0
      | link tgt =>
        rcases held_sub h n with h0 | ⟨id, m, h0⟩
        · exact .inl ⟨rfl, h0⟩
        · rw [hg] at h0; cases h0

/-- The bytes of a file that looks unmodified make no difference. -/
theorem walk_asSeen {T I S : Type} (v : Visitor Id T I S) (F : Forest Id) (d : Dir Bytes) :
    ∀ (pathOf : Name → Path) (pt : Option (Tree Id)) (d0 : Dir Bytes) (i : I) (s : S), Before PF F pt d0 →
    walkFs v (fun _ => true) F pathOf pt (asSeen d0 d) i s = walkFs v (fun _ => true) F pathOf pt d i s := by
  induction d with
  | nil => intro _ _ _ _ _ _; rfl
  | leaf n md l r ih =>
    intro pathOf pt d0 i s hb
    cases l with
    | other =>
      rw [asSeen, ih _ _ _ _ _ hb]
      rw [walkFs.eq_2, if_neg (by simp)]
    | link t =>
      rw [asSeen, walkFs.eq_2, walkFs.eq_2]
      simp only [Bool.true_eq_false, if_false, ih _ _ _ _ _ hb]
    | file x =>
      rw [asSeen, walkFs.eq_2, walkFs.eq_2]
      simp only [Bool.true_eq_false, if_false, ih _ _ _ _ _ hb]
      cases hf : fileAt d0 n with
      | none => rfl
      | some e =>
        obtain ⟨m, x0⟩ := e
        simp only
        by_cases hu : Unmodified md m
        · rw [if_pos hu]
          rcases hb with ⟨_, rfl⟩ | ⟨t, rfl, hb⟩
          · cases hf
          · obtain ⟨cs, hcs⟩ := held_file hb hf
            simp only [Option.bind_some, hcs, unmodified_unread hu, Bool.false_eq_true, if_false]
        · rw [if_neg hu]
  | dir n md sub r ihs ih =>
    intro pathOf pt d0 i s hb
    rw [asSeen, walkFs.eq_3, walkFs.eq_3]
    simp only [Bool.true_eq_false, if_false, ih _ _ _ _ _ hb, ihs _ _ _ _ _ (before_sub hb n)]

theorem forest_asSeen {F : Forest Id} {root : Id} {d0 d : Dir Bytes} {pathOf : Name → Path} {t : Tree Id}
    (ht : F.get? root = some t) (h : HeldIn PF F t d0) :
    forestFromFs C cut F pathOf (some root) (asSeen d0 d) = forestFromFs C cut F pathOf (some root) d := by
  unfold forestFromFs walkTop
  rw [walk_asSeen _ _ _ _ _ _ _ _ (.inr ⟨t, by simp [ht], h⟩ : Before PF F ((some root).bind fun id => F.get? id) d0)]

/-! ## What is printed -/

theorem entry_hasFile (p : Path) : ∀ {d : Dir Bytes} {md : Meta} {x : Bytes}, entry d p = some (md, some (.file x)) → HasFile x d := by
  have hch : ∀ {d : Dir Bytes} {n : Name} {md : Meta} {x : Bytes} {s : Dir Bytes},
      child d n = some ((md, some (.file x)), s) → HasFile x d := by
    intro d n md x s h
    induction d with
    | nil => cases h
    | leaf n' md' l r ih =>
      rw [child] at h
      split at h
      · cases h; exact .inl rfl
      · exact .inr (ih h)
    | dir n' md' s' r _ ih =>
      rw [child] at h
      split at h
      · cases h
      · exact .inr (ih h)
  have hsb : ∀ {d : Dir Bytes} {n : Name} {md : Meta} {x : Bytes} {s : Dir Bytes},
      child d n = some ((md, none), s) → HasFile x s → HasFile x d := by
    intro d n md x s h hx
    induction d with
    | nil => cases h
    | leaf n' md' l r ih =>
      rw [child] at h
      split at h
      · cases h
      · exact .inr (ih h)
    | dir n' md' s' r _ ih =>
      rw [child] at h
      split at h
      · cases h; exact .inl hx
      · exact .inr (ih h)
  induction p with
  | nil => intro d md x h; cases h
  | cons n p ih =>
    intro d md x h
    cases p with
    | nil =>
      simp only [entry] at h
      rcases hc : child d n with _ | ⟨e, s⟩
      · rw [hc] at h; cases h
      · rw [hc] at h
        simp only [Option.map_some, Option.some.injEq] at h
        subst h
        exact hch hc
    | cons m p =>
      simp only [entry] at h
      rcases hc : child d n with _ | ⟨⟨md', _ | l⟩, s⟩
      · rw [hc] at h; cases h
      · rw [hc] at h; exact hsb hc (ih h)
      · rw [hc] at h; cases h

/-- What is printed, by what is at each path. -/
theorem lines {m : Bool} {PF' : List Id → Bytes → Prop} {F1 F2 : Forest Id} {a b : Id} {t1 t2 : Tree Id}
    {d1 d2 : Dir Bytes} (hc : C38.Comparable F1 F2 a b) (h1 : F1.get? a = some t1) (g1 : HeldIn PF F1 t1 d1)
    (h2 : F2.get? b = some t2) (g2 : HeldIn PF' F2 t2 d2)
    (hone : ∀ p md md' cs x cs' x', entry d1 p = some (md, some (.file x)) → entry d2 p = some (md', some (.file x')) →
      PF cs x → PF' cs' x' → (cs = cs' ↔ x = x')) :
    ∃ L, diffForests m F1 F2 a b = .ok L ∧ (L.map (fun e => (e.1, e.2.1))).Nodup ∧
      ∀ sg p, (∃ x, (sg, p, x) ∈ L) ↔ Says m (entry d1 p) (entry d2 p) sg := by
  obtain ⟨L, k1, k2, k3⟩ := C38.exactly (m := m) hc
  refine ⟨L, k1, List.Nodup.map_on ?_ k2, ?_⟩
  · rintro ⟨sg, p, x⟩ hx ⟨sg', p', x'⟩ hx' he
    simp only [Prod.mk.injEq] at he
    obtain ⟨rfl, rfl⟩ := he
    have r := (k3 _ _ _).mp hx
    have r' := (k3 _ _ _).mp hx'
    have : x = x' := by
      cases sg with
      | plus => exact Option.some.inj (r.1.symm.trans r'.1)
      | minus => exact Option.some.inj (r.1.symm.trans r'.1)
      | changed => exact Option.some.inj (r.1.symm.trans r'.1)
      | md c => exact Option.some.inj (r.2.1.symm.trans r'.2.1)
    rw [this]
  · intro sg p
    simp only [k3]
    have e1 := entry_rel p h1 g1
    have e2 := entry_rel p h2 g2
    cases sg with
    | plus =>
      simp only [Reports, Says]
      rcases e2 with ⟨a1, a2⟩ | ⟨y, e, a1, a2, a3⟩
      · simp [a1, a2]
      · rcases e1 with ⟨b1, b2⟩ | ⟨x, e', b1, b2, b3⟩
        · simp [a1, a2, b1, b2]
        · simp [a1, a2, b1, b2, C38.differ_iff b3 a3]
          rfl
    | minus =>
      simp only [Reports, Says]
      rcases e1 with ⟨a1, a2⟩ | ⟨y, e, a1, a2, a3⟩
      · simp [a1, a2]
      · rcases e2 with ⟨b1, b2⟩ | ⟨x, e', b1, b2, b3⟩
        · simp [a1, a2, b1, b2]
        · simp [a1, a2, b1, b2, C38.differ_iff a3 b3]
          rfl
    | changed =>
      simp only [Reports, Says]
      rcases e1 with ⟨a1, a2⟩ | ⟨⟨c, md⟩, ⟨em, l⟩, a1, a2, a3⟩
      · simp [a1, a2]
      · rcases e2 with ⟨b1, b2⟩ | ⟨⟨c', md'⟩, ⟨em', l'⟩, b1, b2, b3⟩
        · simp [b1, b2]
        · rcases c <;> rcases l with _ | _ | _ | _ <;> first | exact a3.elim | skip
          all_goals rcases c' <;> rcases l' with _ | _ | _ | _ <;> first | exact b3.elim | skip
          all_goals simp only [NodeIs] at a3 b3
          all_goals simp [a1, a2, b1, b2, Contents.kind]
          rename_i cs x cs' x'
          have := hone p _ _ cs x cs' x' a2 b2 a3.2 b3.2
          tauto
    | md c0 =>
      simp only [Reports, Says]
      rcases e1 with ⟨a1, a2⟩ | ⟨⟨c, md⟩, ⟨em, l⟩, a1, a2, a3⟩
      · simp [a1, a2]
      · rcases e2 with ⟨b1, b2⟩ | ⟨⟨c', md'⟩, ⟨em', l'⟩, b1, b2, b3⟩
        · simp [b1, b2]
        · rcases c <;> rcases l with _ | _ | _ | _ <;> first | exact a3.elim | skip
          all_goals rcases c' <;> rcases l' with _ | _ | _ | _ <;> first | exact b3.elim | skip
          all_goals simp only [NodeIs] at a3 b3
          all_goals simp [a1, a2, b1, b2, Contents.kind, a3, b3]
          · rename_i cs x cs' x'
            have := hone p _ _ cs x cs' x' a2 b2 a3.2 b3.2
            have h' : x' = x ↔ x = x' := eq_comm
            tauto
          · rename_i t _ t'
            have h' : t = t' ↔ t' = t := eq_comm
            tauto

theorem entry_arranged {d : Dir Bytes} (hd : d.names.Nodup) (p : Path) : entry (arrange d) p = entry d p := by
  rcases p with _ | ⟨n, _ | ⟨m, q⟩⟩ <;> simp only [entry, child_arrange hd]

/-- Files whose chunks have the same IDs have the same bytes. -/
theorem same_bytes (hc : Chunk.Contract cut) {d d' : Dir Bytes} (h : ChunksDiffer C cut d d') {x y : Bytes}
    (hx : HasFile x d ∨ HasFile x d') (hy : HasFile y d ∨ HasFile y d')
    (he : (Chunk.chunkFile C.hash cut x).map Blob.id = (Chunk.chunkFile C.hash cut y).map Blob.id) : x = y := by
  have key : ∀ l l' : List (Blob Id), (∀ b ∈ l, ∀ c ∈ l', b.id = c.id → b.data = c.data) →
      l.map Blob.id = l'.map Blob.id → l.map Blob.data = l'.map Blob.data := by
    intro l
    induction l with
    | nil => intro l' _ h; cases l' with
      | nil => rfl
      | cons c l' => cases h
    | cons b l ih =>
      intro l' hl h
      cases l' with
      | nil => cases h
      | cons c l' =>
        simp only [List.map_cons, List.cons.injEq] at h ⊢
        exact ⟨hl b (by simp) c (by simp) h.1, ih l' (fun b hb c hc => hl b (List.mem_cons_of_mem _ hb) c
          (List.mem_cons_of_mem _ hc)) h.2⟩
  have := congrArg List.flatten (key _ _ (h x y hx hy) he)
  rwa [C10.chunks_concat C.hash cut hc, C10.chunks_concat C.hash cut hc] at this

/-! ## Nothing missed -/

theorem asSeen_self {d : Dir Bytes} (hp : Plain d) : ∀ d0 : Dir Bytes, Faithful d0 d → asSeen d0 d = d := by
  induction d with
  | nil => intro _ _; rfl
  | leaf n md l r ih =>
    intro d0 hf
    cases l with
    | other => exact absurd rfl hp.1
    | link t => rw [asSeen, ih hp.2 d0 hf.2]
    | file x =>
      rw [asSeen, ih hp.2 d0 hf.2]
      cases h : fileAt d0 n with
      | none => rfl
      | some e =>
        obtain ⟨m, x0⟩ := e
        simp only
        split
        · rename_i hu; rw [hf.1 x m x0 rfl h hu]
        · rfl
  | dir n md s r ihs ih => intro d0 hf; rw [asSeen, ih hp.2 d0 hf.2, ihs hp.1 _ hf.1]

theorem child_plain {d : Dir Bytes} (hp : Plain d) {n : Name} {md : Meta} {l : Option (Leaf Bytes)} {s : Dir Bytes}
    (h : child d n = some ((md, l), s)) : l ≠ some .other ∧ Plain s := by
  induction d with
  | nil => cases h
  | leaf n' md' l' r ih =>
    rw [child] at h
    split at h
    · cases h; exact ⟨fun e => hp.1 (Option.some.inj e), trivial⟩
    · exact ih hp.2 h
  | dir n' md' s' r _ ih =>
    rw [child] at h
    split at h
    · cases h; exact ⟨by simp, hp.1⟩
    · exact ih hp.2 h

theorem entry_plain (p : Path) : ∀ {d : Dir Bytes}, Plain d → ∀ md, entry d p ≠ some (md, some .other) := by
  induction p with
  | nil => intro d _ md h; cases h
  | cons n p ih =>
    intro d hp md h
    cases p with
    | nil =>
      simp only [entry] at h
      rcases hc : child d n with _ | ⟨⟨md', l⟩, s⟩
      · rw [hc] at h; cases h
      · rw [hc] at h
        simp only [Option.map_some, Option.some.injEq, Prod.mk.injEq] at h
        exact (child_plain hp hc).1 h.2
    | cons m p =>
      simp only [entry] at h
      rcases hc : child d n with _ | ⟨⟨md', _ | l⟩, s⟩
      · rw [hc] at h; cases h
      · rw [hc] at h; exact ih (child_plain hp hc).2 md h
      · rw [hc] at h; cases h

/-- No sign is called for exactly if all is the same. -/
theorem says_none {m : Bool} {a b : Option Ent} (hb : ∀ md, b ≠ some (md, some .other)) :
    (∀ sg, ¬ Says m a b sg) ↔ SameEnt m a b := by
  constructor
  · intro h
    rcases a with _ | ⟨md, l⟩
    · rcases b with _ | e
      · trivial
      · exact absurd ⟨e, rfl, fun _ h => by cases h⟩ (h .plus)
    · rcases b with _ | ⟨md', l'⟩
      · exact absurd ⟨_, rfl, fun _ h => by cases h⟩ (h .minus)
      · have hl : l = l' := by
          have h1 := h .plus
          have h2 := h .changed
          rcases l with _ | _ | _ | _ <;> rcases l' with _ | _ | _ | _ <;>
            simp_all [Says, OtherThing]
        refine ⟨hl, fun hm => ?_⟩
        by_contra hne
        exact h (.md (metaDiffChar md md')) ⟨hm, md, md', l, rfl, by rw [hl], hne, rfl⟩
  · intro h sg hs
    rcases a with _ | ⟨md, l⟩ <;> rcases b with _ | ⟨md', l'⟩ <;> first | exact h.elim | skip
    · cases sg <;> simp [Says] at hs
    · obtain ⟨h1, h2⟩ := h
      dsimp only at h1 h2
      subst h1
      cases sg with
      | plus =>
        obtain ⟨e, he, h⟩ := hs
        cases he
        have := h _ rfl
        rcases l with _ | _ | _ | _ <;> simp_all [OtherThing]
      | minus =>
        obtain ⟨e, he, h⟩ := hs
        cases he
        have := h _ rfl
        rcases l with _ | _ | _ | _ <;> simp_all [OtherThing]
      | changed =>
        obtain ⟨_, _, x, x', e1, e2, hne⟩ := hs
        simp_all
      | md c =>
        obtain ⟨hm, a, b, l', e1, e2, hne, _⟩ := hs
        simp_all

end Since
end Backpak
