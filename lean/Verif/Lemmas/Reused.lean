import Verif.Model.Reused
import Verif.Spec.Reused
import Verif.Lemmas.Backup

/-!
# Lemmas about the bytes a backup counts as reused
-/

namespace Backpak

open Spec

variable {Id : Type} [LinearOrder Id] {C : Codec Id} {cut : Bytes → Nat} {filter : Path → Bool}
  {F : Forest Id}

/-! ## Two walks over states one of which is a part of the other -/

section Project

variable {T I S S' : Type} {v : Visitor Id T I S} {v' : Visitor Id T I S'} {f : S → S'}

theorem walk_project (hi : v.init = v'.init)
    (hv : ∀ i n md prev e s, v'.visit i n md prev e (f s) =
      (v.visit i n md prev e s).map (fun r => (r.1, f r.2)))
    (hf : ∀ i s, v'.finalize i (f s) = (v.finalize i s).map (fun r => (r.1, f r.2)))
    (d : Dir Bytes) : ∀ (pathOf : Name → Path) (pt : Option (Tree Id)) (i : I) (s : S),
      walkFs v' filter F pathOf pt d i (f s) =
        (walkFs v filter F pathOf pt d i s).map (fun r => (r.1, f r.2)) := by
  induction d with
  | nil => intro pathOf pt i s; rfl
  | leaf n md lf rest ih =>
    intro pathOf pt i s
    unfold walkFs
    split
    · exact ih _ _ _ _
    · simp only
      cases lf with
      | other => exact ih _ _ _ _
      | link tgt =>
        simp only [hv]
        cases v.visit i n md (pt.bind (fun t => BMap.get? t n)) (.link tgt) s with
        | error e => rfl
        | ok r => exact ih _ _ _ _
      | file x =>
        simp only
        cases fileChanged md (pt.bind (fun t => BMap.get? t n)) with
        | error e => rfl
        | ok ch =>
          simp only [hv]
          cases v.visit i n md (pt.bind (fun t => BMap.get? t n))
            (if ch then .changed x else .unchanged) s with
          | error e => rfl
          | ok r => exact ih _ _ _ _
  | dir n md sub rest ihs ih =>
    intro pathOf pt i s
    unfold walkFs
    split
    · exact ih _ _ _ _
    · simp only
      rw [← hi, ihs]
      cases walkFs v filter F (fun m => pathOf n ++ [m])
        ((prevSubtree (pt.bind (fun t => BMap.get? t n))).bind (fun id => F.get? id)) sub
        v.init s with
      | error e => rfl
      | ok r =>
        simp only [Except.map, hf]
        cases v.finalize r.1 r.2 with
        | error e => rfl
        | ok q =>
          simp only [Except.map, hv]
          cases v.visit i n md (pt.bind (fun t => BMap.get? t n)) (.dir q.1) q.2 with
          | error e => rfl
          | ok r => exact ih _ _ _ _

end Project

theorem offer_sends (s : WalkCounts Id) (b : Blob Id) : (offerCounted s b).sends = offer s.sends b := by
  unfold offerCounted offer
  split <;> rfl

theorem offers_sends (l : List (Blob Id)) (s : WalkCounts Id) :
    (l.foldl offerCounted s).sends = l.foldl offer s.sends := by
  induction l generalizing s with
  | nil => rfl
  | cons b l ih => rw [List.foldl_cons, List.foldl_cons, ih, offer_sends]

/-- The counter changes nothing else. -/
theorem counted_sends (d : Dir Bytes) (pathOf : Name → Path) (prevRoot : Option Id) (s : WalkCounts Id) :
    backupTree C cut filter F pathOf prevRoot d s.sends =
      (backupCounted C cut filter F pathOf prevRoot d s).map (fun r => (r.1, r.2.sends)) := by
  have hf : ∀ (t : Tree Id) (s : WalkCounts Id), (backupVisitor C cut).finalize t s.sends =
      ((countingVisitor C cut).finalize t s).map (fun r => (r.1, r.2.sends)) := by
    intro t s
    unfold backupVisitor countingVisitor
    simp only
    split
    · rfl
    · simp only [Except.map, offer_sends]
  have hw := walk_project (v := countingVisitor C cut) (v' := backupVisitor C cut) (f := WalkCounts.sends)
    (filter := filter) (F := F) rfl (by
      intro t n md prev e s
      have hmap : ∀ (y : Res (Tree Id)) (m : WalkCounts Id), y.map (fun t' => (t', m.sends)) =
          (y.map (fun t' => (t', m))).map (fun r => (r.1, r.2.sends)) := by
        intro y m; cases y <;> rfl
      unfold backupVisitor countingVisitor
      cases e with
      | dir sub => exact hmap _ _
      | link tgt => exact hmap _ _
      | unchanged =>
        simp only
        cases md.size with
        | none => rfl
        | some rb =>
          simp only [reduceCtorEq, if_false]
          cases prev with
          | none => rfl
          | some p => exact hmap _ { s with reused := s.reused + rb }
      | changed x =>
        simp only [← offers_sends]
        exact hmap _ _) hf d pathOf (prevRoot.bind (fun id => F.get? id)) [] s
  unfold backupTree backupCounted walkTop
  rw [show (backupVisitor C cut).init = [] from rfl, show (countingVisitor C cut).init = [] from rfl, hw]
  cases walkFs (countingVisitor C cut) filter F pathOf (prevRoot.bind (fun id => F.get? id)) d [] s with
  | error e => rfl
  | ok r => exact hf _ _

/-! ## The sum -/

/-- The bytes sent and the bytes reused. -/
def WalkCounts.total (s : WalkCounts Id) : Nat := (s.sends.sent.map (·.data.length)).sum + s.reused

theorem offer_total (s : WalkCounts Id) (b : Blob Id) : (offerCounted s b).total = s.total + b.data.length := by
  unfold offerCounted WalkCounts.total
  split
  · simp only; omega
  · simp only [List.map_append, List.sum_append, List.map_cons, List.map_nil, List.sum_cons, List.sum_nil]; omega

theorem offers_total (l : List (Blob Id)) (s : WalkCounts Id) :
    (l.foldl offerCounted s).total = s.total + (l.map (·.data.length)).sum := by
  induction l generalizing s with
  | nil => rfl
  | cons b l ih => rw [List.foldl_cons, ih, offer_total, List.map_cons, List.sum_cons]; omega

omit [LinearOrder Id] in
theorem chunks_total (hc : Chunk.Contract cut) (x : Bytes) :
    ((Chunk.chunkFile C.hash cut x).map (·.data.length)).sum = x.length := by
  conv_rhs => rw [← C10.chunks_concat C.hash cut hc x]
  rw [List.length_flatten, List.map_map]
  rfl

/-- What a node adds to the trees' bytes. -/
inductive NodeBytes (w : Id → Tree Id → Nat) (T : Id → Tree Id → Prop) : Node Id → Nat → Prop
  | file {cs md} : NodeBytes w T ⟨.file cs, md⟩ 0
  | link {tgt md} : NodeBytes w T ⟨.link tgt, md⟩ 0
  | dir {id md t' k'} : T id t' → TreeBytes w T t' k' → NodeBytes w T ⟨.dir id, md⟩ (w id t' + k')

omit [LinearOrder Id] in
theorem NodeBytes.cons {w : Id → Tree Id → Nat} {T : Id → Tree Id → Prop} {n : Name} {x : Node Id} {c k : Nat} {t : Tree Id}
    (hx : NodeBytes w T x c) (ht : TreeBytes w T t k) : TreeBytes w T ((n, x) :: t) (k + c) := by
  cases hx with
  | file => exact .file ht
  | link => exact .link ht
  | dir h1 h2 => rw [Nat.add_comm]; exact .dir h1 h2 ht

omit [LinearOrder Id] in
theorem treeBytes_uncons {w : Id → Tree Id → Nat} {T : Id → Tree Id → Prop} {n : Name} {x : Node Id} {k : Nat} {t : Tree Id}
    (h : TreeBytes w T ((n, x) :: t) k) : ∃ c k', NodeBytes w T x c ∧ TreeBytes w T t k' ∧ k = k' + c := by
  cases h with
  | file h => exact ⟨_, _, .file, h, rfl⟩
  | link h => exact ⟨_, _, .link, h, rfl⟩
  | dir h1 h2 h3 => exact ⟨_, _, .dir h1 h2, h3, Nat.add_comm _ _⟩

omit [LinearOrder Id] in
theorem treeBytes_insert {w : Id → Tree Id → Nat} {T : Id → Tree Id → Prop} {n : Name} {x : Node Id} {c : Nat}
    (hx : NodeBytes w T x c) : ∀ {t : Tree Id} {k : Nat}, t.get? n = none → TreeBytes w T t k →
      TreeBytes w T (BMap.insert n x t) (k + c) := by
  intro t
  induction t with
  | nil => intro k _ h; exact hx.cons h
  | cons e t ih =>
    obtain ⟨m, y⟩ := e
    intro k hn h
    unfold BMap.get? at hn
    split at hn
    · cases hn
    · rename_i hne
      unfold BMap.insert
      split
      · exact hx.cons h
      · rw [if_neg (fun e => hne e.symm)]
        obtain ⟨c', k', h1, h2, rfl⟩ := treeBytes_uncons h
        have := h1.cons (n := m) (ih hn h2)
        rwa [show k' + c' + c = k' + c + c' by omega]

theorem unchanged_file {md : Meta} {prev : Option (Node Id)} (h : fileChanged md prev = .ok false) :
    ∃ cs m, prev = some ⟨.file cs, m⟩ := by
  unfold fileChanged at h
  split at h
  · cases h
  · rename_i hk
    have hk : md.kind = .file := by simpa using hk
    cases prev with
    | none => cases h
    | some p =>
      simp only at h
      cases hp : p.kind with
      | error e => rw [hp] at h; cases h
      | ok k =>
        rw [hp] at h
        simp only at h
        split at h
        · cases h
        · rename_i hk'
          have : k = .file := by rw [← hk]; simpa using hk'
          subst this
          obtain ⟨c, m⟩ := p
          cases c with
          | file cs => exact ⟨cs, m, rfl⟩
          | link tgt =>
            unfold Node.kind at hp
            simp only at hp
            split at hp
            · cases hp
            · cases hp
          | dir s =>
            unfold Node.kind at hp
            simp only at hp
            split at hp
            · cases hp
            · cases hp

omit [LinearOrder Id] in
theorem map_counts {y : Res (Tree Id)} {m s' : WalkCounts Id} {t' : Tree Id}
    (h : y.map (fun t' => (t', m)) = .ok (t', s')) : y = .ok t' ∧ s' = m := by
  cases y with
  | error e => cases h
  | ok v => cases h; exact ⟨rfl, rfl⟩

theorem count_final (t : Tree Id) {s s' : WalkCounts Id} {id : Id}
    (h : (countingVisitor C cut).finalize t s = .ok (id, s')) :
    HashedAs C id t ∧ s'.total = s.total + storedLength C id t ∧ (t = [] → s' = s) := by
  unfold countingVisitor at h
  simp only at h
  split at h
  · rename_i ht
    cases h
    subst ht
    exact ⟨rfl, rfl, fun _ => rfl⟩
  · rename_i ht
    cases h
    cases t with
    | nil => exact absurd rfl ht
    | cons e r => exact ⟨rfl, offer_total _ _, fun h => absurd h ht⟩

theorem walk_counts (hc : Chunk.Contract cut) (d : Dir Bytes) :
    ∀ (pathOf : Name → Path) (pt : Option (Tree Id)) (t t' : Tree Id) (s s' : WalkCounts Id) (k : Nat),
      SizesRight (keep filter pathOf d) → TreeBytes (storedLength C) (HashedAs C) t k →
      walkFs (countingVisitor C cut) filter F pathOf pt d t s = .ok (t', s') →
      ∃ k', TreeBytes (storedLength C) (HashedAs C) t' (k + k') ∧
        s'.total = s.total + fileBytes (keep filter pathOf d) + k' := by
  induction d with
  | nil =>
    intro pathOf pt t t' s s' k _ ht h
    cases h
    exact ⟨0, ht, by simp [keep, fileBytes]⟩
  | leaf n md lf rest ih =>
    intro pathOf pt t t' s s' k hz ht h
    unfold walkFs at h
    by_cases hfil : filter (pathOf n) = false
    · rw [if_pos hfil] at h
      rw [keep, if_pos (.inl hfil)] at hz ⊢
      exact ih _ _ _ _ _ _ _ hz ht h
    · rw [if_neg hfil] at h
      simp only at h
      by_cases hlf : lf = .other
      · subst hlf
        rw [keep, if_pos (.inr rfl)] at hz ⊢
        exact ih _ _ _ _ _ _ _ hz ht h
      · rw [keep, if_neg (by simp [hfil, hlf])] at hz ⊢
        cases lf with
        | other => exact absurd rfl hlf
        | link tgt =>
          simp only at h
          split at h
          · cases h
          · rename_i i' s1 hv
            obtain ⟨h1, rfl⟩ := map_counts hv
            obtain ⟨hn, rfl⟩ := addNode_ok h1
            exact ih _ _ _ _ _ _ _ hz (treeBytes_insert .link hn ht) h
        | file x =>
          simp only at h
          obtain ⟨hz1, hz⟩ := hz
          split at h
          · cases h
          · rename_i ch hch
            split at h
            · cases h
            · rename_i i' s1 hv
              have key : s1.total = s.total + x.length ∧
                  TreeBytes (storedLength C) (HashedAs C) i' (k + 0) := by
                cases ch with
                | true =>
                  obtain ⟨h1, rfl⟩ := map_counts hv
                  obtain ⟨hn, rfl⟩ := addNode_ok h1
                  exact ⟨by rw [offers_total, chunks_total hc], treeBytes_insert .file hn ht⟩
                | false =>
                  obtain ⟨cs, m, hp⟩ := unchanged_file hch
                  simp only [countingVisitor, Bool.false_eq_true, if_false, hz1, hp] at hv
                  obtain ⟨h1, rfl⟩ := map_counts hv
                  obtain ⟨hn, rfl⟩ := addNode_ok h1
                  exact ⟨by unfold WalkCounts.total; simp only; omega, treeBytes_insert .file hn ht⟩
              obtain ⟨k', g1, g2⟩ := ih _ _ _ _ _ _ _ hz key.2 h
              exact ⟨k', g1, by rw [g2, key.1, fileBytes]; omega⟩
  | dir n md sub rest ihs ih =>
    intro pathOf pt t t' s s' k hz ht h
    unfold walkFs at h
    by_cases hfil : filter (pathOf n) = false
    · rw [if_pos hfil] at h
      rw [keep, if_pos hfil] at hz ⊢
      exact ih _ _ _ _ _ _ _ hz ht h
    · rw [if_neg hfil] at h
      rw [keep, if_neg hfil] at hz ⊢
      simp only at h
      split at h
      · cases h
      · rename_i j s1 hs
        split at h
        · cases h
        · rename_i id s2 hf
          split at h
          · cases h
          · rename_i i' s3 hv
            obtain ⟨h1, rfl⟩ := map_counts hv
            obtain ⟨hn, rfl⟩ := addNode_ok h1
            obtain ⟨k1, g1, g2⟩ := ihs _ _ _ _ _ _ _ hz.1 .nil hs
            obtain ⟨e1, e2, _⟩ := count_final _ hf
            obtain ⟨k2, g3, g4⟩ := ih _ _ _ _ _ _ _ hz.2 (treeBytes_insert (.dir e1 g1) hn ht) h
            refine ⟨storedLength C id j + (0 + k1) + k2, by rwa [← Nat.add_assoc], ?_⟩
            rw [g4, e2, g2, fileBytes]
            omega

/-- A tree that has an entry keeps one. -/
theorem walk_ne (d : Dir Bytes) :
    ∀ (pathOf : Name → Path) (pt : Option (Tree Id)) (t t' : Tree Id) (s s' : WalkCounts Id),
      walkFs (countingVisitor C cut) filter F pathOf pt d t s = .ok (t', s') → t' = [] → t = [] ∧ s' = s := by
  have hins : ∀ (n : Name) (x : Node Id) (t : Tree Id), BMap.insert n x t ≠ [] := by
    intro n x t
    cases t with
    | nil => simp [BMap.insert]
    | cons e t =>
      unfold BMap.insert
      split
      · simp
      · split <;> simp
  have hvis : ∀ {t i' : Tree Id} {n md prev e} {s s1 : WalkCounts Id},
      (countingVisitor C cut).visit t n md prev e s = .ok (i', s1) → i' ≠ [] := by
    intro t i' n md prev e s s1 hv
    have fin : ∀ {x m}, (addNode t n x).map (fun t' => (t', m)) = .ok (i', s1) → i' ≠ [] := by
      intro x m h
      obtain ⟨h1, _⟩ := map_counts h
      rw [(addNode_ok h1).2]
      exact hins _ _ _
    unfold countingVisitor at hv
    cases e with
    | dir sub => exact fin hv
    | link tgt => exact fin hv
    | changed x => exact fin hv
    | unchanged =>
      simp only at hv
      split at hv
      · cases hv
      · split at hv
        · cases hv
        · exact fin hv
  induction d with
  | nil =>
    intro pathOf pt t t' s s' h ht
    cases h
    exact ⟨ht, rfl⟩
  | leaf n md lf rest ih =>
    intro pathOf pt t t' s s' h ht
    unfold walkFs at h
    split at h
    · exact ih _ _ _ _ _ _ h ht
    · simp only at h
      cases lf with
      | other => exact ih _ _ _ _ _ _ h ht
      | link tgt =>
        simp only at h
        split at h
        · cases h
        · rename_i hv
          exact absurd (ih _ _ _ _ _ _ h ht).1 (hvis hv)
      | file x =>
        simp only at h
        split at h
        · cases h
        · split at h
          · cases h
          · rename_i hv
            exact absurd (ih _ _ _ _ _ _ h ht).1 (hvis hv)
  | dir n md sub rest ihs ih =>
    intro pathOf pt t t' s s' h ht
    unfold walkFs at h
    split at h
    · exact ih _ _ _ _ _ _ h ht
    · simp only at h
      split at h
      · cases h
      · split at h
        · cases h
        · split at h
          · cases h
          · rename_i hv
            exact absurd (ih _ _ _ _ _ _ h ht).1 (hvis hv)

end Backpak
