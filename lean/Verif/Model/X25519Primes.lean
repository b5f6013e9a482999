import Verif.Model.P256Primes
/-!
The primes of Curve25519, which `x25519_scalar_mulx` (crypto/ec_25519.hpp:13-16) computes on: the field prime, the order of the base
point and the order of a large subgroup of the twisted curve.  Certificates as in `P256Primes`.
-/

namespace Kunlun.X25519

open P256 (lucas)

theorem prime_409477 : Nat.Prime 409477 := by
  refine lucas 2 [(2, 2), (3, 1), (34123, 1)] (by decide +kernel) ?_
  simp only [List.forall_mem_cons]
  refine ⟨?_, ?_, ?_, by simp⟩
  · norm_num
  · norm_num
  · norm_num

theorem prime_430751 : Nat.Prime 430751 := by
  refine lucas 17 [(2, 1), (5, 3), (1723, 1)] (by decide +kernel) ?_
  simp only [List.forall_mem_cons]
  refine ⟨?_, ?_, ?_, by simp⟩
  · norm_num
  · norm_num
  · norm_num

theorem prime_531581 : Nat.Prime 531581 := by
  refine lucas 2 [(2, 2), (5, 1), (7, 1), (3797, 1)] (by decide +kernel) ?_
  simp only [List.forall_mem_cons]
  refine ⟨?_, ?_, ?_, ?_, by simp⟩
  · norm_num
  · norm_num
  · norm_num
  · norm_num

theorem prime_569003 : Nat.Prime 569003 := by
  refine lucas 2 [(2, 1), (7, 1), (97, 1), (419, 1)] (by decide +kernel) ?_
  simp only [List.forall_mem_cons]
  refine ⟨?_, ?_, ?_, ?_, by simp⟩
  · norm_num
  · norm_num
  · norm_num
  · norm_num

theorem prime_727169 : Nat.Prime 727169 := by
  refine lucas 3 [(2, 7), (13, 1), (19, 1), (23, 1)] (by decide +kernel) ?_
  simp only [List.forall_mem_cons]
  refine ⟨?_, ?_, ?_, ?_, by simp⟩
  · norm_num
  · norm_num
  · norm_num
  · norm_num

theorem prime_1224481 : Nat.Prime 1224481 := by
  refine lucas 13 [(2, 5), (3, 1), (5, 1), (2551, 1)] (by decide +kernel) ?_
  simp only [List.forall_mem_cons]
  refine ⟨?_, ?_, ?_, ?_, by simp⟩
  · norm_num
  · norm_num
  · norm_num
  · norm_num

theorem prime_1923133 : Nat.Prime 1923133 := by
  refine lucas 2 [(2, 2), (3, 1), (43, 1), (3727, 1)] (by decide +kernel) ?_
  simp only [List.forall_mem_cons]
  refine ⟨?_, ?_, ?_, ?_, by simp⟩
  · norm_num
  · norm_num
  · norm_num
  · norm_num

theorem prime_6418733 : Nat.Prime 6418733 := by
  refine lucas 2 [(2, 2), (19, 1), (84457, 1)] (by decide +kernel) ?_
  simp only [List.forall_mem_cons]
  refine ⟨?_, ?_, ?_, by simp⟩
  · norm_num
  · norm_num
  · norm_num

theorem prime_8574133 : Nat.Prime 8574133 := by
  refine lucas 2 [(2, 2), (3, 1), (7, 1), (103, 1), (991, 1)] (by decide +kernel) ?_
  simp only [List.forall_mem_cons]
  refine ⟨?_, ?_, ?_, ?_, ?_, by simp⟩
  · norm_num
  · norm_num
  · norm_num
  · norm_num
  · norm_num

theorem prime_14741173 : Nat.Prime 14741173 := by
  refine lucas 2 [(2, 2), (3, 2), (409477, 1)] (by decide +kernel) ?_
  simp only [List.forall_mem_cons]
  refine ⟨?_, ?_, ?_, by simp⟩
  · norm_num
  · norm_num
  · exact prime_409477

theorem prime_58964693 : Nat.Prime 58964693 := by
  refine lucas 2 [(2, 2), (14741173, 1)] (by decide +kernel) ?_
  simp only [List.forall_mem_cons]
  refine ⟨?_, ?_, by simp⟩
  · norm_num
  · exact prime_14741173

theorem prime_292386187 : Nat.Prime 292386187 := by
  refine lucas 2 [(2, 1), (3, 4), (307, 1), (5879, 1)] (by decide +kernel) ?_
  simp only [List.forall_mem_cons]
  refine ⟨?_, ?_, ?_, ?_, by simp⟩
  · norm_num
  · norm_num
  · norm_num
  · norm_num

theorem prime_743104567 : Nat.Prime 743104567 := by
  refine lucas 6 [(2, 1), (3, 2), (3637, 1), (11351, 1)] (by decide +kernel) ?_
  simp only [List.forall_mem_cons]
  refine ⟨?_, ?_, ?_, ?_, by simp⟩
  · norm_num
  · norm_num
  · norm_num
  · norm_num

theorem prime_1110318119 : Nat.Prime 1110318119 := by
  refine lucas 7 [(2, 1), (7, 1), (13, 1), (487, 1), (12527, 1)] (by decide +kernel) ?_
  simp only [List.forall_mem_cons]
  refine ⟨?_, ?_, ?_, ?_, ?_, by simp⟩
  · norm_num
  · norm_num
  · norm_num
  · norm_num
  · norm_num

theorem prime_2220636239 : Nat.Prime 2220636239 := by
  refine lucas 23 [(2, 1), (1110318119, 1)] (by decide +kernel) ?_
  simp only [List.forall_mem_cons]
  refine ⟨?_, ?_, by simp⟩
  · norm_num
  · exact prime_1110318119

theorem prime_2773320623 : Nat.Prime 2773320623 := by
  refine lucas 5 [(2, 1), (2437, 1), (569003, 1)] (by decide +kernel) ?_
  simp only [List.forall_mem_cons]
  refine ⟨?_, ?_, ?_, by simp⟩
  · norm_num
  · norm_num
  · exact prime_569003

theorem prime_72106336199 : Nat.Prime 72106336199 := by
  refine lucas 7 [(2, 1), (13, 1), (2773320623, 1)] (by decide +kernel) ?_
  simp only [List.forall_mem_cons]
  refine ⟨?_, ?_, ?_, by simp⟩
  · norm_num
  · norm_num
  · exact prime_2773320623

theorem prime_213441916511 : Nat.Prime 213441916511 := by
  refine lucas 13 [(2, 1), (5, 1), (73, 1), (292386187, 1)] (by decide +kernel) ?_
  simp only [List.forall_mem_cons]
  refine ⟨?_, ?_, ?_, ?_, by simp⟩
  · norm_num
  · norm_num
  · norm_num
  · exact prime_292386187

theorem prime_1013266244677 : Nat.Prime 1013266244677 := by
  refine lucas 2 [(2, 2), (3, 1), (7, 1), (383, 1), (3911, 1), (8053, 1)] (by decide +kernel) ?_
  simp only [List.forall_mem_cons]
  refine ⟨?_, ?_, ?_, ?_, ?_, ?_, by simp⟩
  · norm_num
  · norm_num
  · norm_num
  · norm_num
  · norm_num
  · norm_num

theorem prime_5171003929967 : Nat.Prime 5171003929967 := by
  refine lucas 5 [(2, 1), (7, 1), (31, 1), (181, 1), (2281, 1), (28859, 1)] (by decide +kernel) ?_
  simp only [List.forall_mem_cons]
  refine ⟨?_, ?_, ?_, ?_, ?_, ?_, by simp⟩
  · norm_num
  · norm_num
  · norm_num
  · norm_num
  · norm_num
  · norm_num

theorem prime_1257559732178653 : Nat.Prime 1257559732178653 := by
  refine lucas 2 [(2, 2), (3, 1), (7, 1), (23, 1), (531581, 1), (1224481, 1)] (by decide +kernel) ?_
  simp only [List.forall_mem_cons]
  refine ⟨?_, ?_, ?_, ?_, ?_, ?_, by simp⟩
  · norm_num
  · norm_num
  · norm_num
  · norm_num
  · exact prime_531581
  · exact prime_1224481

theorem prime_1919519569386763 : Nat.Prime 1919519569386763 := by
  refine lucas 2 [(2, 1), (3, 1), (7, 1), (19, 1), (47, 2), (127, 1), (8574133, 1)] (by decide +kernel) ?_
  simp only [List.forall_mem_cons]
  refine ⟨?_, ?_, ?_, ?_, ?_, ?_, ?_, by simp⟩
  · norm_num
  · norm_num
  · norm_num
  · norm_num
  · norm_num
  · norm_num
  · exact prime_8574133

theorem prime_31757755568855353 : Nat.Prime 31757755568855353 := by
  refine lucas 10 [(2, 3), (3, 1), (31, 1), (107, 1), (223, 1), (4153, 1), (430751, 1)] (by decide +kernel) ?_
  simp only [List.forall_mem_cons]
  refine ⟨?_, ?_, ?_, ?_, ?_, ?_, ?_, by simp⟩
  · norm_num
  · norm_num
  · norm_num
  · norm_num
  · norm_num
  · norm_num
  · exact prime_430751

theorem prime_4434155615661930479 : Nat.Prime 4434155615661930479 := by
  refine lucas 17 [(2, 1), (41, 1), (43, 1), (1257559732178653, 1)] (by decide +kernel) ?_
  simp only [List.forall_mem_cons]
  refine ⟨?_, ?_, ?_, ?_, by simp⟩
  · norm_num
  · norm_num
  · norm_num
  · exact prime_1257559732178653

theorem prime_22561162540501040539 : Nat.Prime 22561162540501040539 := by
  refine lucas 3 [(2, 1), (3, 1), (727169, 1), (5171003929967, 1)] (by decide +kernel) ?_
  simp only [List.forall_mem_cons]
  refine ⟨?_, ?_, ?_, ?_, by simp⟩
  · norm_num
  · norm_num
  · exact prime_727169
  · exact prime_5171003929967

theorem prime_3044861653679985063343 : Nat.Prime 3044861653679985063343 := by
  refine lucas 5 [(2, 1), (3, 1), (11, 1), (30703, 1), (82163, 1), (132667, 1), (137849, 1)] (by decide +kernel) ?_
  simp only [List.forall_mem_cons]
  refine ⟨?_, ?_, ?_, ?_, ?_, ?_, ?_, by simp⟩
  · norm_num
  · norm_num
  · norm_num
  · norm_num
  · norm_num
  · norm_num
  · norm_num

theorem prime_172054593956031949258510691 : Nat.Prime 172054593956031949258510691 := by
  refine lucas 2 [(2, 1), (5, 1), (1361, 1), (2851, 1), (4434155615661930479, 1)] (by decide +kernel) ?_
  simp only [List.forall_mem_cons]
  refine ⟨?_, ?_, ?_, ?_, ?_, by simp⟩
  · norm_num
  · norm_num
  · norm_num
  · norm_num
  · exact prime_4434155615661930479

theorem prime_198211423230930754013084525763697 : Nat.Prime 198211423230930754013084525763697 := by
  refine lucas 5 [(2, 4), (3, 1), (23, 1), (58964693, 1), (3044861653679985063343, 1)] (by decide +kernel) ?_
  simp only [List.forall_mem_cons]
  refine ⟨?_, ?_, ?_, ?_, ?_, by simp⟩
  · norm_num
  · norm_num
  · norm_num
  · exact prime_58964693
  · exact prime_3044861653679985063343

theorem prime_75445702479781427272750846543864801 : Nat.Prime 75445702479781427272750846543864801 := by
  refine lucas 7 [(2, 5), (3, 2), (5, 2), (75707, 1), (72106336199, 1), (1919519569386763, 1)] (by decide +kernel) ?_
  simp only [List.forall_mem_cons]
  refine ⟨?_, ?_, ?_, ?_, ?_, ?_, by simp⟩
  · norm_num
  · norm_num
  · norm_num
  · norm_num
  · exact prime_72106336199
  · exact prime_1919519569386763

theorem prime_19757330305831588566944191468367130476339 : Nat.Prime 19757330305831588566944191468367130476339 := by
  refine lucas 2 [(2, 1), (269, 1), (213441916511, 1), (172054593956031949258510691, 1)] (by decide +kernel) ?_
  simp only [List.forall_mem_cons]
  refine ⟨?_, ?_, ?_, ?_, by simp⟩
  · norm_num
  · norm_num
  · exact prime_213441916511
  · exact prime_172054593956031949258510691

theorem prime_203852586375664218368381551393371968928013 : Nat.Prime 203852586375664218368381551393371968928013 := by
  refine lucas 2 [(2, 2), (3, 1), (743104567, 1), (1013266244677, 1), (22561162540501040539, 1)] (by decide +kernel) ?_
  simp only [List.forall_mem_cons]
  refine ⟨?_, ?_, ?_, ?_, ?_, by simp⟩
  · norm_num
  · norm_num
  · exact prime_743104567
  · exact prime_1013266244677
  · exact prime_22561162540501040539

theorem prime_276602624281642239937218680557139826668747 : Nat.Prime 276602624281642239937218680557139826668747 := by
  refine lucas 2 [(2, 1), (7, 1), (19757330305831588566944191468367130476339, 1)] (by decide +kernel) ?_
  simp only [List.forall_mem_cons]
  refine ⟨?_, ?_, ?_, by simp⟩
  · norm_num
  · norm_num
  · exact prime_19757330305831588566944191468367130476339

theorem prime_104719073621178708975837602950775180438320278101 : Nat.Prime 104719073621178708975837602950775180438320278101 := by
  refine lucas 2 [(2, 2), (5, 2), (11, 1), (467, 1), (203852586375664218368381551393371968928013, 1)] (by decide +kernel) ?_
  simp only [List.forall_mem_cons]
  refine ⟨?_, ?_, ?_, ?_, ?_, by simp⟩
  · norm_num
  · norm_num
  · norm_num
  · norm_num
  · exact prime_203852586375664218368381551393371968928013

theorem prime_27413359092552162435694767700453926735143482401279781 : Nat.Prime 27413359092552162435694767700453926735143482401279781 := by
  refine lucas 2 [(2, 2), (3, 1), (5, 1), (4363, 1), (104719073621178708975837602950775180438320278101, 1)] (by decide +kernel) ?_
  simp only [List.forall_mem_cons]
  refine ⟨?_, ?_, ?_, ?_, ?_, by simp⟩
  · norm_num
  · norm_num
  · norm_num
  · norm_num
  · exact prime_104719073621178708975837602950775180438320278101

theorem prime_74058212732561358302231226437062788676166966415465897661863160754340907 : Nat.Prime 74058212732561358302231226437062788676166966415465897661863160754340907 := by
  refine lucas 2 [(2, 1), (3, 1), (353, 1), (57467, 1), (132049, 1), (1923133, 1), (31757755568855353, 1), (75445702479781427272750846543864801, 1)] (by decide +kernel) ?_
  simp only [List.forall_mem_cons]
  refine ⟨?_, ?_, ?_, ?_, ?_, ?_, ?_, ?_, by simp⟩
  · norm_num
  · norm_num
  · norm_num
  · norm_num
  · norm_num
  · exact prime_1923133
  · exact prime_31757755568855353
  · exact prime_75445702479781427272750846543864801

/-- The field prime. -/
def p : ℕ := 2 ^ 255 - 19

theorem p_prime : p.Prime := by
  refine lucas 2 [(2, 2), (3, 1), (65147, 1), (74058212732561358302231226437062788676166966415465897661863160754340907, 1)] (by unfold p; decide +kernel) ?_
  simp only [List.forall_mem_cons]
  refine ⟨?_, ?_, ?_, ?_, by simp⟩
  · norm_num
  · norm_num
  · norm_num
  · exact prime_74058212732561358302231226437062788676166966415465897661863160754340907

/-- The order of the base point. -/
def l : ℕ := 2 ^ 252 + 27742317777372353535851937790883648493

theorem l_prime : l.Prime := by
  refine lucas 2 [(2, 2), (3, 1), (11, 1), (198211423230930754013084525763697, 1), (276602624281642239937218680557139826668747, 1)] (by unfold l; decide +kernel) ?_
  simp only [List.forall_mem_cons]
  refine ⟨?_, ?_, ?_, ?_, ?_, by simp⟩
  · norm_num
  · norm_num
  · norm_num
  · exact prime_198211423230930754013084525763697
  · exact prime_276602624281642239937218680557139826668747

/-- A quarter of the number of points of the twisted curve. -/
def l' : ℕ := 2 ^ 253 - 55484635554744707071703875581767296995

theorem l'_prime : l'.Prime := by
  refine lucas 2 [(2, 2), (79, 1), (117223, 1), (6418733, 1), (2220636239, 1), (27413359092552162435694767700453926735143482401279781, 1)] (by unfold l'; decide +kernel) ?_
  simp only [List.forall_mem_cons]
  refine ⟨?_, ?_, ?_, ?_, ?_, ?_, by simp⟩
  · norm_num
  · norm_num
  · norm_num
  · exact prime_6418733
  · exact prime_2220636239
  · exact prime_27413359092552162435694767700453926735143482401279781

end Kunlun.X25519
