import Verif.Base.Pratt
import Mathlib.Tactic.NormNum.Prime

/-! Primality of the order of the Pallas base field (Pratt certificate). -/

namespace Base.Pasta

open Pratt

theorem prime_14923 : Nat.Prime 14923 :=
  prime_of_check 14923 2 [(2, 1), (3, 2), (829, 1)] (by decide +kernel) (by
    simp only [List.mem_cons, List.not_mem_nil, or_false, forall_eq_or_imp, forall_eq]
    exact ⟨(by norm_num), (by norm_num), (by norm_num)⟩)

theorem prime_1973 : Nat.Prime 1973 :=
  prime_of_check 1973 2 [(2, 2), (17, 1), (29, 1)] (by decide +kernel) (by
    simp only [List.mem_cons, List.not_mem_nil, or_false, forall_eq_or_imp, forall_eq]
    exact ⟨(by norm_num), (by norm_num), (by norm_num)⟩)

theorem prime_6229 : Nat.Prime 6229 :=
  prime_of_check 6229 2 [(2, 2), (3, 2), (173, 1)] (by decide +kernel) (by
    simp only [List.mem_cons, List.not_mem_nil, or_false, forall_eq_or_imp, forall_eq]
    exact ⟨(by norm_num), (by norm_num), (by norm_num)⟩)

theorem prime_24917 : Nat.Prime 24917 :=
  prime_of_check 24917 2 [(2, 2), (6229, 1)] (by decide +kernel) (by
    simp only [List.mem_cons, List.not_mem_nil, or_false, forall_eq_or_imp, forall_eq]
    exact ⟨(by norm_num), prime_6229⟩)

theorem prime_149503 : Nat.Prime 149503 :=
  prime_of_check 149503 3 [(2, 1), (3, 1), (24917, 1)] (by decide +kernel) (by
    simp only [List.mem_cons, List.not_mem_nil, or_false, forall_eq_or_imp, forall_eq]
    exact ⟨(by norm_num), (by norm_num), prime_24917⟩)

theorem prime_897019 : Nat.Prime 897019 :=
  prime_of_check 897019 2 [(2, 1), (3, 1), (149503, 1)] (by decide +kernel) (by
    simp only [List.mem_cons, List.not_mem_nil, or_false, forall_eq_or_imp, forall_eq]
    exact ⟨(by norm_num), (by norm_num), prime_149503⟩)

theorem prime_417677162933 : Nat.Prime 417677162933 :=
  prime_of_check 417677162933 2 [(2, 2), (59, 1), (1973, 1), (897019, 1)] (by decide +kernel) (by
    simp only [List.mem_cons, List.not_mem_nil, or_false, forall_eq_or_imp, forall_eq]
    exact ⟨(by norm_num), (by norm_num), prime_1973, prime_897019⟩)

theorem prime_539204044132271846773 : Nat.Prime 539204044132271846773 :=
  prime_of_check 539204044132271846773 5 [(2, 2), (3, 5), (89, 1), (14923, 1), (417677162933, 1)] (by decide +kernel) (by
    simp only [List.mem_cons, List.not_mem_nil, or_false, forall_eq_or_imp, forall_eq]
    exact ⟨(by norm_num), (by norm_num), (by norm_num), prime_14923, prime_417677162933⟩)

theorem prime_2531 : Nat.Prime 2531 :=
  prime_of_check 2531 2 [(2, 1), (5, 1), (11, 1), (23, 1)] (by decide +kernel) (by
    simp only [List.mem_cons, List.not_mem_nil, or_false, forall_eq_or_imp, forall_eq]
    exact ⟨(by norm_num), (by norm_num), (by norm_num), (by norm_num)⟩)

theorem prime_19267 : Nat.Prime 19267 :=
  prime_of_check 19267 3 [(2, 1), (3, 1), (13, 2), (19, 1)] (by decide +kernel) (by
    simp only [List.mem_cons, List.not_mem_nil, or_false, forall_eq_or_imp, forall_eq]
    exact ⟨(by norm_num), (by norm_num), (by norm_num), (by norm_num)⟩)

theorem prime_115603 : Nat.Prime 115603 :=
  prime_of_check 115603 2 [(2, 1), (3, 1), (19267, 1)] (by decide +kernel) (by
    simp only [List.mem_cons, List.not_mem_nil, or_false, forall_eq_or_imp, forall_eq]
    exact ⟨(by norm_num), (by norm_num), prime_19267⟩)

theorem prime_3767 : Nat.Prime 3767 :=
  prime_of_check 3767 5 [(2, 1), (7, 1), (269, 1)] (by decide +kernel) (by
    simp only [List.mem_cons, List.not_mem_nil, or_false, forall_eq_or_imp, forall_eq]
    exact ⟨(by norm_num), (by norm_num), (by norm_num)⟩)

theorem prime_1197907 : Nat.Prime 1197907 :=
  prime_of_check 1197907 3 [(2, 1), (3, 1), (53, 1), (3767, 1)] (by decide +kernel) (by
    simp only [List.mem_cons, List.not_mem_nil, or_false, forall_eq_or_imp, forall_eq]
    exact ⟨(by norm_num), (by norm_num), (by norm_num), prime_3767⟩)

theorem prime_6942563 : Nat.Prime 6942563 :=
  prime_of_check 6942563 2 [(2, 1), (11, 1), (17, 1), (19, 1), (977, 1)] (by decide +kernel) (by
    simp only [List.mem_cons, List.not_mem_nil, or_false, forall_eq_or_imp, forall_eq]
    exact ⟨(by norm_num), (by norm_num), (by norm_num), (by norm_num), (by norm_num)⟩)

theorem prime_41655379 : Nat.Prime 41655379 :=
  prime_of_check 41655379 2 [(2, 1), (3, 1), (6942563, 1)] (by decide +kernel) (by
    simp only [List.mem_cons, List.not_mem_nil, or_false, forall_eq_or_imp, forall_eq]
    exact ⟨(by norm_num), (by norm_num), prime_6942563⟩)

theorem prime_22160661629 : Nat.Prime 22160661629 :=
  prime_of_check 22160661629 3 [(2, 2), (7, 1), (19, 1), (41655379, 1)] (by decide +kernel) (by
    simp only [List.mem_cons, List.not_mem_nil, or_false, forall_eq_or_imp, forall_eq]
    exact ⟨(by norm_num), (by norm_num), (by norm_num), prime_41655379⟩)

theorem prime_413527 : Nat.Prime 413527 :=
  prime_of_check 413527 3 [(2, 1), (3, 1), (41, 3)] (by decide +kernel) (by
    simp only [List.mem_cons, List.not_mem_nil, or_false, forall_eq_or_imp, forall_eq]
    exact ⟨(by norm_num), (by norm_num), (by norm_num)⟩)

theorem prime_25741 : Nat.Prime 25741 :=
  prime_of_check 25741 6 [(2, 2), (3, 2), (5, 1), (11, 1), (13, 1)] (by decide +kernel) (by
    simp only [List.mem_cons, List.not_mem_nil, or_false, forall_eq_or_imp, forall_eq]
    exact ⟨(by norm_num), (by norm_num), (by norm_num), (by norm_num), (by norm_num)⟩)

theorem prime_772231 : Nat.Prime 772231 :=
  prime_of_check 772231 6 [(2, 1), (3, 1), (5, 1), (25741, 1)] (by decide +kernel) (by
    simp only [List.mem_cons, List.not_mem_nil, or_false, forall_eq_or_imp, forall_eq]
    exact ⟨(by norm_num), (by norm_num), (by norm_num), prime_25741⟩)

theorem prime_325086459374267 : Nat.Prime 325086459374267 :=
  prime_of_check 325086459374267 2 [(2, 1), (509, 1), (413527, 1), (772231, 1)] (by decide +kernel) (by
    simp only [List.mem_cons, List.not_mem_nil, or_false, forall_eq_or_imp, forall_eq]
    exact ⟨(by norm_num), (by norm_num), prime_413527, prime_772231⟩)

theorem prime_8999194758858563409123804352480028797519453 : Nat.Prime 8999194758858563409123804352480028797519453 :=
  prime_of_check 8999194758858563409123804352480028797519453 2 [(2, 2), (3, 4), (11, 1), (2531, 1), (115603, 1), (1197907, 1), (22160661629, 1), (325086459374267, 1)] (by decide +kernel) (by
    simp only [List.mem_cons, List.not_mem_nil, or_false, forall_eq_or_imp, forall_eq]
    exact ⟨(by norm_num), (by norm_num), (by norm_num), prime_2531, prime_115603, prime_1197907, prime_22160661629, prime_325086459374267⟩)

theorem prime_p : Nat.Prime 28948022309329048855892746252171976963363056481941560715954676764349967630337 :=
  prime_of_check 28948022309329048855892746252171976963363056481941560715954676764349967630337 5 [(2, 32), (3, 1), (463, 1), (539204044132271846773, 1), (8999194758858563409123804352480028797519453, 1)] (by decide +kernel) (by
    simp only [List.mem_cons, List.not_mem_nil, or_false, forall_eq_or_imp, forall_eq]
    exact ⟨(by norm_num), (by norm_num), (by norm_num), prime_539204044132271846773, prime_8999194758858563409123804352480028797519453⟩)

end Base.Pasta
