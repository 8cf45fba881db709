import Verif.Model.Init
import Mathlib.Tactic.DeriveCountable
import Mathlib.Data.Countable.Basic
import Mathlib.Logic.Encodable.Basic
import Mathlib.Logic.Equiv.List

/-!
# C62 - A repository that was made can be opened, as it was made, and making it harms nothing
-/

namespace Backpak.C62

open Init

/-! ## Configurations -/

/-- A configuration survives the trip to disk. -/
theorem config_round_trip (T : Toml) (c : RepoConfig) : readConfig T (writeConfig T c) = .ok c := by
  obtain ⟨n, k, f⟩ := c
  cases f with
  | none => simp [writeConfig, readConfig, T.dec_enc]
  | some fu => simp [writeConfig, readConfig, T.dec_enc]

/-- What is read is what the file says; a file with half a filter is refused, so that nothing is ever
written unfiltered, or never to be read again, by mistake. -/
theorem config_read (T : Toml) (x : Bytes) (c : RepoConfig) : readConfig T x = .ok c ↔
    T.dec x = some ⟨c.packSize, c.kind, c.filter.map (·.1), c.filter.map (·.2)⟩ := by
  unfold readConfig
  cases hd : T.dec x with
  | none => simp
  | some cf =>
    obtain ⟨n, k, f, u⟩ := cf
    obtain ⟨n', k', fu⟩ := c
    cases f <;> cases u <;> cases fu <;> simp [and_assoc]
    rename_i a b ab
    intro _ _
    constructor
    · rintro rfl; exact ⟨rfl, rfl⟩
    · rintro ⟨rfl, rfl⟩; rfl

/-- With a filter, all that is read and written goes through it, whatever the kind of backend. -/
theorem filter_kept (c : RepoConfig) : (layers c).filter = c.filter ∧ (layers c).raw = c.kind ∧
    (c.filter ≠ none → (layers c).cached = true) := by
  obtain ⟨n, k, f⟩ := c
  cases k with
  | filesystem b => cases b <;> cases f <;> simp [layers]
  | backblaze => simp [layers]

/-! ## The filesystem -/

theorem get_cons (p : Place) (n : Node) (fs : Fs) (q : Place) :
    Fs.get ((p, n) :: fs) q = if q = [] then some .dir else if p = q then some n else fs.get q := by
  unfold Fs.get
  split
  · rfl
  · by_cases h : p = q <;> simp [h]

theorem act_get {a : Act} {fs fs' : Fs} (h : act a fs = some fs') (ha : ∀ p x, a ≠ .write p x) (q : Place) :
    fs'.get q = fs.get q ∨ (fs.get q = none ∧ (fs'.get q = some .dir ∨ fs'.get q = some (.file []))) := by
  cases a with
  | mkdir p =>
    simp only [act] at h
    split at h
    · rename_i hp
      cases h
      rw [get_cons]
      split
      · rename_i hq
        exact .inl (by simp [Fs.get, hq])
      · split
        · rename_i hpq
          subst hpq
          exact .inr ⟨hp.1, .inl rfl⟩
        · exact .inl rfl
    · cases h
  | create p =>
    simp only [act] at h
    split at h
    · rename_i hp
      cases h
      rw [get_cons]
      split
      · rename_i hq
        exact .inl (by simp [Fs.get, hq])
      · split
        · rename_i hpq
          subst hpq
          exact .inr ⟨hp.1, .inr rfl⟩
        · exact .inl rfl
    · cases h
  | write p x => exact absurd rfl (ha p x)

/-- Steps other than writing only make empty things where there was nothing. -/
theorem run_get {l : List Act} (hl : ∀ p x, Act.write p x ∉ l) (fs : Fs) (q : Place) :
    (run l fs).1.get q = fs.get q ∨
      (fs.get q = none ∧ ((run l fs).1.get q = some .dir ∨ (run l fs).1.get q = some (.file []))) := by
  induction l generalizing fs with
  | nil => exact .inl rfl
  | cons a l ih =>
    unfold run
    cases h : act a fs with
    | none => exact .inl rfl
    | some fs' =>
      have h1 := act_get h (fun p x e => hl p x (by simp [e])) q
      have h2 := ih (fun p x hm => hl p x (by simp [hm])) fs'
      dsimp only
      rcases h1 with h1 | ⟨h0, h1⟩
      · rw [h1] at h2
        exact h2
      · rcases h2 with h2 | ⟨h3, h2⟩
        · rw [h2]; exact .inr ⟨h0, h1⟩
        · exact .inr ⟨h0, h2⟩

/-- Steps that write elsewhere keep what there is. -/
theorem run_keeps {l : List Act} {p : Place} (hl : ∀ x, Act.write p x ∉ l) {fs : Fs} {n : Node} (h : fs.get p = some n) :
    (run l fs).1.get p = some n := by
  induction l generalizing fs with
  | nil => exact h
  | cons a l ih =>
    unfold run
    cases ha : act a fs with
    | none => exact h
    | some fs' =>
      refine ih (fun x hm => hl x (by simp [hm])) ?_
      cases a with
      | write q x =>
        simp only [act] at ha
        cases ha
        rw [get_cons]
        split
        · rename_i hp
          simp only [Fs.get, hp, if_true] at h
          exact h
        · rw [if_neg, h]
          rintro rfl
          exact hl x (by simp)
      | mkdir q =>
        rcases act_get ha (by simp) p with h1 | ⟨h0, _⟩
        · rw [h1, h]
        · rw [h0] at h; cases h
      | create q =>
        rcases act_get ha (by simp) p with h1 | ⟨h0, _⟩
        · rw [h1, h]
        · rw [h0] at h; cases h

theorem empty_get {fs : Fs} {p : Place} (h : fs.Empty p) (n : Bytes) : fs.get (p ++ [n]) = none := by
  unfold Fs.get
  rw [if_neg (by simp), Option.map_eq_none_iff, List.find?_eq_none]
  intro e he
  simp only [decide_eq_true_eq]
  intro hp
  rcases h e he with h | h
  · rw [h] at hp; simp at hp
  · rw [hp] at h; simp at h

/-- Every path is in a directory. -/
def Tree (fs : Fs) : Prop := ∀ p, fs.get p ≠ none → fs.get p.dropLast = some .dir

theorem config_missing {T : Toml} {repo : Place} {c : RepoConfig} {fs : Fs} {l : List Act} (ht : Tree fs)
    (h : init T repo c fs = .ok l) (hk : ∃ b, c.kind = .filesystem b) :
    (fs.get repo = none ∨ fs.get repo = some .dir) ∧ fs.get (repo ++ [nConfig]) = none := by
  obtain ⟨b, hk⟩ := hk
  unfold init at h
  rw [hk] at h
  dsimp only at h
  split at h
  · rename_i hn
    refine ⟨.inl hn, ?_⟩
    by_contra hc
    have := ht _ hc
    rw [List.dropLast_concat, hn] at this
    cases this
  · cases h
  · rename_i hd
    split at h
    · rename_i he
      exact ⟨.inr hd, empty_get he _⟩
    · cases h

/-- What making a repository writes to is not there before. -/
theorem write_missing {T : Toml} {repo : Place} {c : RepoConfig} {fs : Fs} {l : List Act} (ht : Tree fs)
    (h : init T repo c fs = .ok l) {p : Place} {x : Bytes} (hm : Act.write p x ∈ l) :
    fs.get p = none ∨ ∃ l', l = [.create p] ++ l' ∧ fs.get p ≠ none := by
  cases hk : c.kind with
  | filesystem b =>
    have hmiss := (config_missing ht h ⟨b, hk⟩).2
    have hp : p = repo ++ [nConfig] := by
      unfold init at h
      rw [hk] at h
      dsimp only at h
      split at h
      · cases h; simp [fill] at hm; exact hm.1
      · cases h
      · split at h
        · cases h; simp [fill] at hm; exact hm.1
        · cases h
    exact .inl (hp ▸ hmiss)
  | backblaze =>
    unfold init at h
    rw [hk] at h
    cases h
    simp only [List.mem_cons, reduceCtorEq, Act.write.injEq, List.not_mem_nil, or_false, false_or] at hm
    obtain ⟨rfl, rfl⟩ := hm
    by_cases hp : fs.get p = none
    · exact .inl hp
    · exact .inr ⟨_, rfl, hp⟩

/-! ## Making a repository -/

/-- Making a repository changes nothing that is there, even if it is cut short. -/
theorem harms_nothing {T : Toml} {repo : Place} {c : RepoConfig} {fs : Fs} {l : List Act} (ht : Tree fs)
    (h : init T repo c fs = .ok l) (k : Nat) {p : Place} {n : Node} (hp : fs.get p = some n) :
    (run (l.take k) fs).1.get p = some n := by
  by_cases hw : ∃ x, Act.write p x ∈ l
  · obtain ⟨x, hw⟩ := hw
    rcases write_missing ht h hw with h0 | ⟨l', rfl, _⟩
    · rw [hp] at h0; cases h0
    · cases k with
      | zero => exact hp
      | succ k =>
        simp only [List.singleton_append, List.take_succ_cons, run, act, hp, reduceCtorEq, false_and, if_false]
  · exact run_keeps (fun x hm => hw ⟨x, List.mem_of_mem_take hm⟩) hp

/-- It is not made where something is: nothing is done at all. -/
theorem refuses {T : Toml} {repo : Place} {c : RepoConfig} {fs : Fs} {b : Bool} (hk : c.kind = .filesystem b)
    (h : (∃ x, fs.get repo = some (.file x)) ∨ ∃ n, fs.get (repo ++ [n]) ≠ none) (hd : Tree fs) :
    ∃ e, init T repo c fs = .error e := by
  unfold init
  rw [hk]
  dsimp only
  rcases h with ⟨x, h⟩ | ⟨n, h⟩
  · rw [h]; exact ⟨_, rfl⟩
  · have := hd _ h
    rw [List.dropLast_concat] at this
    rw [this]
    dsimp only
    rw [if_neg]
    · exact ⟨_, rfl⟩
    · exact fun he => h (empty_get he n)

theorem join_ne {repo : Place} {a b : Bytes} (h : a ≠ b) : repo ++ [a] ≠ repo ++ [b] := by
  intro he
  exact h (by simpa using he)

theorem join_nil (repo : Place) (a : Bytes) : repo ++ [a] ≠ [] := by simp

theorem join_self (repo : Place) (a : Bytes) : repo ++ [a] ≠ repo := by simp

theorem join_self' (repo : Place) (a : Bytes) : repo ≠ repo ++ [a] := by simp

theorem names : nPacks ≠ nIndexes ∧ nPacks ≠ nSnapshots ∧ nPacks ≠ nConfig ∧ nIndexes ≠ nSnapshots ∧
    nIndexes ≠ nConfig ∧ nSnapshots ≠ nConfig := by decide

/-- Filling an empty directory: it works, and what comes of it. -/
theorem fill_run (T : Toml) {repo : Place} (c : RepoConfig) {fs : Fs} (hd : fs.get repo = some .dir)
    (he : ∀ n, fs.get (repo ++ [n]) = none) :
    (run (fill T repo c) fs).2 = true ∧ (run (fill T repo c) fs).1.get repo = some .dir ∧
    (run (fill T repo c) fs).1.get (repo ++ [nPacks]) = some .dir ∧
    (run (fill T repo c) fs).1.get (repo ++ [nIndexes]) = some .dir ∧
    (run (fill T repo c) fs).1.get (repo ++ [nSnapshots]) = some .dir ∧
    (run (fill T repo c) fs).1.get (repo ++ [nConfig]) = some (.file (writeConfig T c)) := by
  obtain ⟨h1, h2, h3, h4, h5, h6⟩ := names
  have e1 := @join_ne repo _ _ h1
  have e2 := @join_ne repo _ _ h2
  have e3 := @join_ne repo _ _ h3
  have e4 := @join_ne repo _ _ h4
  have e5 := @join_ne repo _ _ h5
  have e6 := @join_ne repo _ _ h6
  have hn := he
  by_cases hr : repo = []
  · subst hr
    simp only [List.nil_append] at *
    simp [fill, run, act, get_cons, hd, he, e1, e2, e3, e4, e5, e6, Ne.symm h1, Ne.symm h2, Ne.symm h3, Ne.symm h4,
      Ne.symm h5, Ne.symm h6, h1, h2, h3, h4, h5, h6, hn]
  · simp [fill, run, act, get_cons, hd, he, h1, h2, h3, h4, h5, h6, Ne.symm h1, Ne.symm h2, Ne.symm h3, Ne.symm h4,
      Ne.symm h5, Ne.symm h6, hr]

/-- A repository on a filesystem can be made where there is nothing, in a directory, or in an empty
directory. -/
theorem can_make (T : Toml) {repo : Place} {c : RepoConfig} {fs : Fs} {b : Bool} (ht : Tree fs)
    (hk : c.kind = .filesystem b)
    (h : (fs.get repo = none ∧ fs.get repo.dropLast = some .dir) ∨ (fs.get repo = some .dir ∧ fs.Empty repo)) :
    ∃ l, init T repo c fs = .ok l ∧ (run l fs).2 = true := by
  unfold init
  rw [hk]
  dsimp only
  rcases h with ⟨h1, h2⟩ | ⟨h1, h2⟩
  · rw [h1]
    refine ⟨_, rfl, ?_⟩
    simp only [run, act, h1, h2, and_self, if_true]
    have hr : repo ≠ [] := by
      rintro rfl
      simp [Fs.get] at h1
    refine (fill_run T c ?_ ?_).1
    · rw [get_cons, if_neg hr, if_pos rfl]
    · intro n
      rw [get_cons, if_neg (join_nil _ _), if_neg (join_self' _ _)]
      by_contra hc
      have := ht _ hc
      rw [List.dropLast_concat, h1] at this
      cases this
  · rw [h1]
    dsimp only
    rw [if_pos h2]
    exact ⟨_, rfl, (fill_run T c h1 (empty_get h2)).1⟩

/-- A repository that was made can be opened, and is as it was to be. -/
theorem made_opens {T : Toml} {repo : Place} {c : RepoConfig} {fs : Fs} {l : List Act} (ht : Tree fs)
    (h : init T repo c fs = .ok l) (hr : (run l fs).2 = true) :
    openRepo T (run l fs).1 repo = .ok (c, layers c) := by
  cases hk : c.kind with
  | filesystem b =>
    have key : ∀ fs : Fs, fs.get repo = some .dir → (∀ n, fs.get (repo ++ [n]) = none) →
        openRepo T (run (fill T repo c) fs).1 repo = .ok (c, layers c) := by
      intro fs h1 h2
      obtain ⟨_, h3, h4, h5, h6, h7⟩ := fill_run T c h1 h2
      simp [openRepo, openFs, h3, h4, h5, h6, h7, config_round_trip, hk]
    unfold init at h
    rw [hk] at h
    dsimp only at h
    split at h
    · rename_i hn
      cases h
      simp only [run] at hr ⊢
      cases ha : act (.mkdir repo) fs with
      | none => rw [ha] at hr; cases hr
      | some fs' =>
        simp only [act] at ha
        split at ha
        · cases ha
          have hne : repo ≠ [] := by
            rintro rfl
            simp [Fs.get] at hn
          refine key _ ?_ ?_
          · rw [get_cons, if_neg hne, if_pos rfl]
          · intro n
            rw [get_cons, if_neg (join_nil _ _), if_neg (join_self' _ _)]
            by_contra hc
            have := ht _ hc
            rw [List.dropLast_concat, hn] at this
            cases this
        · cases ha
    · cases h
    · rename_i hd
      split at h
      · rename_i he
        cases h
        exact key fs hd (empty_get he)
      · cases h
  | backblaze ki ak bu n =>
    unfold init at h
    rw [hk] at h
    cases h
    simp only [run] at hr ⊢
    cases ha : act (.create repo) fs with
    | none => rw [ha] at hr; cases hr
    | some fs' =>
      simp only [act] at ha
      split at ha
      · rename_i hp
        cases ha
        have hne : repo ≠ [] := by
          rintro rfl
          simp [Fs.get] at hp
        simp [act, openRepo, get_cons, hne, config_round_trip, hk]
      · cases ha

/-- What making a repository does last is to write the configuration. -/
theorem last_writes {T : Toml} {repo : Place} {c : RepoConfig} {fs : Fs} {l : List Act} (h : init T repo c fs = .ok l)
    {k : Nat} (hk : k < l.length) (p : Place) (x : Bytes) : Act.write p x ∉ l.take k := by
  intro hm
  have key : ∀ (l' : List Act) (a : Act), l = l' ++ [a] → (∀ p x, Act.write p x ∉ l') → False := by
    rintro l' a rfl hl'
    have hle : k ≤ l'.length := by simp at hk; omega
    rw [List.take_append_of_le_length hle] at hm
    exact hl' p x (List.mem_of_mem_take hm)
  unfold init at h
  split at h
  · split at h
    · cases h
      exact key [.mkdir repo, .mkdir (repo ++ [nPacks]), .mkdir (repo ++ [nIndexes]), .mkdir (repo ++ [nSnapshots]),
        .create (repo ++ [nConfig])] _ rfl (by simp)
    · cases h
    · split at h
      · cases h
        exact key [.mkdir (repo ++ [nPacks]), .mkdir (repo ++ [nIndexes]), .mkdir (repo ++ [nSnapshots]),
          .create (repo ++ [nConfig])] _ rfl (by simp)
      · cases h
  · cases h
    exact key [.create repo] _ rfl (by simp)

/-- A repository on a filesystem that opens has its configuration and everything that is to be in it. -/
theorem opened_has {T : Toml} {repo : Place} {fs : Fs} {c : RepoConfig} {L : Layers} (h : openRepo T fs repo = .ok (c, L)) :
    L = layers c ∧ (∃ x, (fs.get repo = some (.file x) ∨ fs.get repo = some .dir ∧ fs.get (repo ++ [nConfig]) = some (.file x)) ∧
      readConfig T x = .ok c) ∧
    ∀ b, c.kind = .filesystem b → ∀ n ∈ [nPacks, nIndexes, nSnapshots], fs.get (repo ++ [n]) ≠ none := by
  have hfs : openFs fs repo = .ok () → ∀ n ∈ [nPacks, nIndexes, nSnapshots], fs.get (repo ++ [n]) ≠ none := by
    intro ho
    unfold openFs at ho
    split at ho
    · cases ho
    split at ho
    · cases ho
    split at ho
    · cases ho
    split at ho
    · cases ho
    simp_all
  unfold openRepo at h
  dsimp only at h
  split at h
  · cases h
  rename_i c' hc
  have hx : ∃ x, (fs.get repo = some (.file x) ∨ fs.get repo = some .dir ∧
      fs.get (repo ++ [nConfig]) = some (.file x)) ∧ readConfig T x = .ok c' := by
    split at hc
    · cases hc
    · rename_i hd
      split at hc
      · rename_i x hx
        exact ⟨x, .inr ⟨hd, hx⟩, hc⟩
      · cases hc
    · rename_i x hx
      exact ⟨x, .inl hx, hc⟩
  split at h
  · rename_i b hk
    split at h
    · cases h
    · rename_i ho
      cases h
      exact ⟨rfl, hx, fun _ _ => hfs ho⟩
  · rename_i hk
    cases h
    exact ⟨rfl, hx, fun b hb => by rw [hk] at hb; cases hb⟩

/-- Without a configuration nothing opens. -/
theorem no_config {T : Toml} {repo : Place} {fs : Fs} (r : RepoConfig × Layers)
    (h : fs.get repo = none ∨ fs.get repo = some (.file []) ∨ (fs.get repo = some .dir ∧
      (fs.get (repo ++ [nConfig]) = none ∨ fs.get (repo ++ [nConfig]) = some .dir ∨
        fs.get (repo ++ [nConfig]) = some (.file [])))) : openRepo T fs repo ≠ .ok r := by
  unfold openRepo
  rcases h with h | h | ⟨h, h' | h' | h'⟩ <;> simp [h, readConfig, T.dec_nil]
  all_goals simp [h', T.dec_nil]

/-- A repository whose making was cut short cannot be opened: there is no repository with fewer
directories, or with other settings, than were asked for. -/
theorem unfinished {T : Toml} {repo : Place} {c : RepoConfig} {fs : Fs} {l : List Act} (ht : Tree fs)
    (h : init T repo c fs = .ok l) (hnot : ∀ r, openRepo T fs repo ≠ .ok r) {k : Nat} (hk : k < l.length)
    (r : RepoConfig × Layers) : openRepo T (run (l.take k) fs).1 repo ≠ .ok r := by
  cases hkind : c.kind with
  | filesystem b =>
    obtain ⟨hrepo, hconf⟩ := config_missing ht h ⟨b, hkind⟩
    have h1 := run_get (last_writes h hk) fs repo
    have h2 := run_get (last_writes h hk) fs (repo ++ [nConfig])
    rw [hconf] at h2
    have h2' : (run (l.take k) fs).1.get (repo ++ [nConfig]) = none ∨
        (run (l.take k) fs).1.get (repo ++ [nConfig]) = some .dir ∨
        (run (l.take k) fs).1.get (repo ++ [nConfig]) = some (.file []) := by
      rcases h2 with h2 | ⟨_, h2⟩
      · exact .inl h2
      · exact .inr h2
    apply no_config
    rcases h1 with h1 | ⟨_, h1 | h1⟩
    · rw [h1]
      rcases hrepo with h0 | h0
      · exact .inl h0
      · exact .inr (.inr ⟨h0, h2'⟩)
    · exact .inr (.inr ⟨h1, h2'⟩)
    · exact .inr (.inl h1)
  | backblaze ki ak bu n =>
    unfold init at h
    rw [hkind] at h
    cases h
    have : k = 0 ∨ k = 1 := by simp at hk; omega
    rcases this with rfl | rfl
    · exact hnot r
    · simp only [List.take_succ_cons, List.take_zero, run]
      cases ha : act (.create repo) fs with
      | none => exact hnot r
      | some fs' =>
        simp only [act] at ha
        split at ha
        · rename_i hp
          cases ha
          have hne : repo ≠ [] := by
            rintro rfl
            simp [Fs.get] at hp
          apply no_config
          right; left
          rw [get_cons, if_neg hne, if_pos rfl]
        · cases ha

/-- But it cannot be finished either: once a directory was made in it, making it again is refused, and
somebody has to clear it away. -/
theorem cannot_be_finished {T : Toml} {repo : Place} {c : RepoConfig} {fs : Fs} {l : List Act} {b : Bool}
    (hkind : c.kind = .filesystem b) (h : init T repo c fs = .ok l) {k : Nat} (hk : 2 ≤ k)
    (hr : (run (l.take k) fs).2 = true) : init T repo c (run (l.take k) fs).1 = .error (.err "already exists and isn't empty") := by
  obtain ⟨k, rfl⟩ : ∃ m, k = m + 2 := ⟨k - 2, by omega⟩
  have refused : ∀ fs : Fs, fs.get repo = some .dir → fs.get (repo ++ [nPacks]) = some .dir →
      init T repo c fs = .error (.err "already exists and isn't empty") := by
    intro fs h1 h2
    unfold init
    rw [hkind]
    simp only [h1]
    rw [if_neg]
    intro he
    rw [empty_get he] at h2
    cases h2
  have later : ∀ (l : List Act) (fs : Fs), (∀ p x, Act.write p x ∈ l → p = repo ++ [nConfig]) → fs.get repo = some .dir →
      fs.get (repo ++ [nPacks]) = some .dir → init T repo c (run l fs).1 = .error (.err "already exists and isn't empty") := by
    intro l fs hl h1 h2
    refine refused _ (run_keeps (fun x hm => ?_) h1) (run_keeps (fun x hm => ?_) h2)
    · exact join_self' _ _ (hl _ _ hm)
    · exact join_ne names.2.2.1 (hl _ _ hm)
  unfold init at h
  rw [hkind] at h
  dsimp only at h
  split at h
  · rename_i hn
    cases h
    have hne : repo ≠ [] := by
      rintro rfl
      simp [Fs.get] at hn
    simp only [List.take_succ_cons, fill, run] at hr ⊢
    cases ha : act (.mkdir repo) fs with
    | none => rw [ha] at hr; cases hr
    | some fs1 =>
      rw [ha] at hr
      dsimp only at hr ⊢
      cases hb : act (.mkdir (repo ++ [nPacks])) fs1 with
      | none => rw [hb] at hr; cases hr
      | some fs2 =>
        dsimp only
        simp only [act] at ha hb
        split at ha
        · cases ha
          split at hb
          · cases hb
            refine later _ _ ?_ ?_ ?_
            · intro p x hm
              have := List.mem_of_mem_take hm
              simp at this
              exact this.1
            · rw [get_cons, if_neg hne, if_neg (join_self _ _), get_cons, if_neg hne, if_pos rfl]
            · rw [get_cons, if_neg (join_nil _ _), if_pos rfl]
          · cases hb
        · cases ha
  · cases h
  · rename_i hd
    split at h
    · cases h
      simp only [List.take_succ_cons, fill, run] at hr ⊢
      cases hb : act (.mkdir (repo ++ [nPacks])) fs with
      | none => rw [hb] at hr; cases hr
      | some fs2 =>
        rw [hb] at hr
        dsimp only at hr ⊢
        simp only [act] at hb
        split at hb
        · cases hb
          refine later (.mkdir (repo ++ [nIndexes]) :: _) _ ?_ ?_ ?_
          · intro p x hm
            rcases List.mem_cons.mp hm with hm | hm
            · cases hm
            · have := List.mem_of_mem_take hm
              simp at this
              exact this.1
          · rw [get_cons]
            split
            · rfl
            · rw [if_neg (join_self _ _), hd]
          · rw [get_cons, if_neg (join_nil _ _), if_pos rfl]
        · cases hb
    · cases h

/-! ## An example -/

instance : Countable UInt8 := ⟨UInt8.toNat, fun _ _ h => UInt8.toNat_inj.mp h⟩

instance : Countable Bytes := inferInstanceAs (Countable (List UInt8))

deriving instance Countable for Kind, ConfigFile

/-- There is a way to write configurations: number them. -/
noncomputable def tomlE : Toml :=
  have h := exists_injective_nat ConfigFile
  open Classical in
  { enc := fun c => List.replicate (h.choose c + 1) 0
    dec := fun x => if hx : ∃ c, List.replicate (h.choose c + 1) 0 = x then some hx.choose else none
    dec_enc := by
      intro c
      have hc : ∃ c', List.replicate (h.choose c' + 1) (0 : UInt8) = List.replicate (h.choose c + 1) 0 := ⟨c, rfl⟩
      rw [dif_pos hc]
      have := congrArg List.length hc.choose_spec
      simp only [List.length_replicate, Nat.add_right_cancel_iff] at this
      rw [h.choose_spec this]
    dec_nil := by
      rw [dif_neg]
      rintro ⟨c, hc⟩
      simp at hc }

def homeE : Place := [ascii "home"]

def fsE : Fs := [(homeE, .dir), (homeE ++ [ascii "notes"], .file [1, 2, 3])]

def confE : RepoConfig := ⟨100, .filesystem false, some (ascii "gpg --encrypt", ascii "gpg --decrypt")⟩

theorem treeE : Tree fsE := by
  intro p hp
  unfold Fs.get at hp
  split at hp
  · rename_i h
    subst h
    rfl
  · have : p = homeE ∨ p = homeE ++ [ascii "notes"] := by
      simp only [fsE, List.find?, ne_eq] at hp
      by_contra hc
      rw [not_or] at hc
      apply hp
      rw [decide_eq_false (fun h => hc.1 h.symm), decide_eq_false (fun h => hc.2 h.symm)]
      rfl
    rcases this with rfl | rfl <;> decide

/-- A repository in a new directory, beside some notes, and one whose making was cut short. -/
example : Tree fsE ∧ fsE.get (homeE ++ [ascii "repo"]) = none ∧ fsE.get (homeE ++ [ascii "repo"]).dropLast = some .dir ∧
    init tomlE (homeE ++ [ascii "repo"]) confE fsE =
      .ok (.mkdir (homeE ++ [ascii "repo"]) :: fill tomlE (homeE ++ [ascii "repo"]) confE) ∧
    (∀ r, openRepo tomlE fsE (homeE ++ [ascii "repo"]) ≠ .ok r) ∧
    (run ((.mkdir (homeE ++ [ascii "repo"]) :: fill tomlE (homeE ++ [ascii "repo"]) confE).take 3) fsE).2 = true := by
  have hn : fsE.get (homeE ++ [ascii "repo"]) = none := by decide
  refine ⟨treeE, hn, by decide, ?_, fun r => no_config r (.inl hn), by decide⟩
  simp only [init, confE, hn]

end Backpak.C62
