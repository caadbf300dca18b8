import Verif.RealSizing
/-!
# The thresholds for 128 to 440, by table
-/

namespace DK2

/-- `MAXSZ(m, i)` for `m = 128 + j`: `⌊2^15 log₂ m⌋` and the values for `i = 0, …, 8`. -/
def tab128 : List (Nat × List Nat) := [
  (229376, [5, 8, 13, 22, 36, 59, 96, 157, 256]),
  (229743, [5, 8, 13, 22, 36, 59, 97, 158, 258]),
  (230108, [5, 8, 13, 22, 37, 60, 98, 159, 260]),
  (230471, [5, 8, 14, 22, 37, 60, 98, 160, 262]),
  (230830, [5, 8, 14, 23, 37, 61, 99, 162, 264]),
  (231187, [5, 8, 14, 23, 37, 61, 100, 163, 266]),
  (231541, [5, 8, 14, 23, 37, 61, 100, 164, 268]),
  (231893, [5, 8, 14, 23, 38, 62, 101, 165, 270]),
  (232241, [5, 8, 14, 23, 38, 62, 102, 166, 272]),
  (232588, [5, 8, 14, 23, 38, 63, 102, 167, 274]),
  (232932, [5, 8, 14, 23, 38, 63, 103, 169, 276]),
  (233273, [5, 8, 14, 23, 39, 63, 104, 170, 278]),
  (233612, [5, 9, 14, 24, 39, 64, 104, 171, 280]),
  (233948, [5, 9, 14, 24, 39, 64, 105, 172, 282]),
  (234282, [5, 9, 14, 24, 39, 64, 106, 173, 284]),
  (234614, [5, 9, 14, 24, 39, 65, 106, 174, 286]),
  (234944, [5, 9, 15, 24, 40, 65, 107, 176, 288]),
  (235271, [5, 9, 15, 24, 40, 66, 108, 177, 290]),
  (235596, [5, 9, 15, 24, 40, 66, 108, 178, 292]),
  (235918, [5, 9, 15, 24, 40, 66, 109, 179, 294]),
  (236239, [5, 9, 15, 25, 41, 67, 110, 180, 296]),
  (236557, [5, 9, 15, 25, 41, 67, 110, 181, 298]),
  (236873, [5, 9, 15, 25, 41, 68, 111, 182, 300]),
  (237188, [5, 9, 15, 25, 41, 68, 112, 184, 302]),
  (237500, [5, 9, 15, 25, 41, 68, 112, 185, 304]),
  (237810, [5, 9, 15, 25, 42, 69, 113, 186, 306]),
  (238118, [5, 9, 15, 25, 42, 69, 114, 187, 308]),
  (238424, [5, 9, 15, 25, 42, 69, 114, 188, 310]),
  (238728, [5, 9, 15, 26, 42, 70, 115, 189, 312]),
  (239030, [5, 9, 15, 26, 43, 70, 116, 191, 314]),
  (239330, [5, 9, 16, 26, 43, 71, 116, 192, 316]),
  (239628, [5, 9, 16, 26, 43, 71, 117, 193, 318]),
  (239924, [5, 9, 16, 26, 43, 71, 118, 194, 320]),
  (240219, [5, 9, 16, 26, 43, 72, 118, 195, 322]),
  (240512, [6, 9, 16, 26, 44, 72, 119, 196, 324]),
  (240803, [6, 9, 16, 26, 44, 73, 120, 197, 326]),
  (241092, [6, 9, 16, 27, 44, 73, 120, 199, 328]),
  (241379, [6, 10, 16, 27, 44, 73, 121, 200, 330]),
  (241665, [6, 10, 16, 27, 45, 74, 122, 201, 332]),
  (241949, [6, 10, 16, 27, 45, 74, 122, 202, 334]),
  (242231, [6, 10, 16, 27, 45, 74, 123, 203, 336]),
  (242512, [6, 10, 16, 27, 45, 75, 124, 204, 338]),
  (242790, [6, 10, 16, 27, 45, 75, 124, 206, 340]),
  (243068, [6, 10, 16, 27, 46, 76, 125, 207, 342]),
  (243343, [6, 10, 16, 28, 46, 76, 126, 208, 344]),
  (243617, [6, 10, 17, 28, 46, 76, 126, 209, 346]),
  (243890, [6, 10, 17, 28, 46, 77, 127, 210, 348]),
  (244161, [6, 10, 17, 28, 46, 77, 128, 211, 350]),
  (244430, [6, 10, 17, 28, 47, 77, 128, 212, 352]),
  (244698, [6, 10, 17, 28, 47, 78, 129, 214, 354]),
  (244964, [6, 10, 17, 28, 47, 78, 130, 215, 356]),
  (245229, [6, 10, 17, 28, 47, 79, 130, 216, 358]),
  (245493, [6, 10, 17, 29, 48, 79, 131, 217, 360]),
  (245754, [6, 10, 17, 29, 48, 79, 132, 218, 362]),
  (246015, [6, 10, 17, 29, 48, 80, 132, 219, 364]),
  (246274, [6, 10, 17, 29, 48, 80, 133, 221, 366]),
  (246532, [6, 10, 17, 29, 48, 81, 134, 222, 368]),
  (246788, [6, 10, 17, 29, 49, 81, 134, 223, 370]),
  (247043, [6, 10, 17, 29, 49, 81, 135, 224, 372]),
  (247296, [6, 10, 18, 29, 49, 82, 136, 225, 374]),
  (247548, [6, 10, 18, 30, 49, 82, 136, 226, 376]),
  (247799, [6, 10, 18, 30, 49, 82, 137, 227, 378]),
  (248049, [6, 10, 18, 30, 50, 83, 138, 229, 380]),
  (248297, [6, 11, 18, 30, 50, 83, 138, 230, 382]),
  (248544, [6, 11, 18, 30, 50, 84, 139, 231, 384]),
  (248789, [6, 11, 18, 30, 50, 84, 140, 232, 386]),
  (249033, [6, 11, 18, 30, 51, 84, 140, 233, 388]),
  (249276, [6, 11, 18, 30, 51, 85, 141, 234, 390]),
  (249518, [6, 11, 18, 30, 51, 85, 142, 235, 392]),
  (249759, [6, 11, 18, 31, 51, 85, 142, 237, 394]),
  (249998, [6, 11, 18, 31, 51, 86, 143, 238, 396]),
  (250236, [6, 11, 18, 31, 52, 86, 144, 239, 398]),
  (250473, [6, 11, 18, 31, 52, 87, 144, 240, 400]),
  (250709, [6, 11, 18, 31, 52, 87, 145, 241, 402]),
  (250944, [6, 11, 19, 31, 52, 87, 145, 242, 404]),
  (251177, [6, 11, 19, 31, 52, 88, 146, 244, 406]),
  (251410, [6, 11, 19, 31, 53, 88, 147, 245, 408]),
  (251641, [6, 11, 19, 32, 53, 88, 147, 246, 410]),
  (251871, [6, 11, 19, 32, 53, 89, 148, 247, 412]),
  (252100, [6, 11, 19, 32, 53, 89, 149, 248, 414]),
  (252328, [7, 11, 19, 32, 54, 89, 149, 249, 416]),
  (252554, [7, 11, 19, 32, 54, 90, 150, 250, 418]),
  (252780, [7, 11, 19, 32, 54, 90, 151, 252, 420]),
  (253004, [7, 11, 19, 32, 54, 91, 151, 253, 422]),
  (253228, [7, 11, 19, 32, 54, 91, 152, 254, 424]),
  (253450, [7, 11, 19, 33, 55, 91, 153, 255, 426]),
  (253672, [7, 11, 19, 33, 55, 92, 153, 256, 428]),
  (253892, [7, 11, 19, 33, 55, 92, 154, 257, 430]),
  (254112, [7, 11, 20, 33, 55, 92, 155, 258, 432]),
  (254330, [7, 12, 20, 33, 55, 93, 155, 260, 434]),
  (254547, [7, 12, 20, 33, 56, 93, 156, 261, 436]),
  (254764, [7, 12, 20, 33, 56, 94, 157, 262, 438]),
  (254979, [7, 12, 20, 33, 56, 94, 157, 263, 440]),
  (255193, [7, 12, 20, 33, 56, 94, 158, 264, 442]),
  (255407, [7, 12, 20, 34, 56, 95, 159, 265, 444]),
  (255619, [7, 12, 20, 34, 57, 95, 159, 266, 446]),
  (255831, [7, 12, 20, 34, 57, 95, 160, 268, 448]),
  (256041, [7, 12, 20, 34, 57, 96, 160, 269, 450]),
  (256251, [7, 12, 20, 34, 57, 96, 161, 270, 452]),
  (256460, [7, 12, 20, 34, 58, 97, 162, 271, 454]),
  (256668, [7, 12, 20, 34, 58, 97, 162, 272, 456]),
  (256875, [7, 12, 20, 34, 58, 97, 163, 273, 458]),
  (257081, [7, 12, 20, 35, 58, 98, 164, 274, 460]),
  (257286, [7, 12, 20, 35, 58, 98, 164, 275, 462]),
  (257490, [7, 12, 21, 35, 59, 98, 165, 277, 464]),
  (257693, [7, 12, 21, 35, 59, 99, 166, 278, 466]),
  (257896, [7, 12, 21, 35, 59, 99, 166, 279, 468]),
  (258097, [7, 12, 21, 35, 59, 99, 167, 280, 470]),
  (258298, [7, 12, 21, 35, 59, 100, 168, 281, 472]),
  (258498, [7, 12, 21, 35, 60, 100, 168, 282, 474]),
  (258697, [7, 12, 21, 35, 60, 101, 169, 283, 476]),
  (258895, [7, 12, 21, 36, 60, 101, 170, 285, 478]),
  (259092, [7, 12, 21, 36, 60, 101, 170, 286, 480]),
  (259289, [7, 12, 21, 36, 60, 102, 171, 287, 482]),
  (259485, [7, 12, 21, 36, 61, 102, 171, 288, 484]),
  (259680, [7, 12, 21, 36, 61, 102, 172, 289, 486]),
  (259874, [7, 13, 21, 36, 61, 103, 173, 290, 488]),
  (260067, [7, 13, 21, 36, 61, 103, 173, 291, 490]),
  (260260, [7, 13, 21, 36, 61, 103, 174, 293, 492]),
  (260452, [7, 13, 22, 37, 62, 104, 175, 294, 494]),
  (260643, [7, 13, 22, 37, 62, 104, 175, 295, 496]),
  (260833, [7, 13, 22, 37, 62, 105, 176, 296, 498]),
  (261022, [7, 13, 22, 37, 62, 105, 177, 297, 500]),
  (261211, [7, 13, 22, 37, 62, 105, 177, 298, 502]),
  (261399, [7, 13, 22, 37, 63, 106, 178, 299, 504]),
  (261586, [7, 13, 22, 37, 63, 106, 179, 301, 506]),
  (261773, [7, 13, 22, 37, 63, 106, 179, 302, 508]),
  (261958, [7, 13, 22, 37, 63, 107, 180, 303, 510]),
  (262144, [8, 13, 22, 38, 64, 107, 181, 304, 512]),
  (262328, [8, 13, 22, 38, 64, 107, 181, 305, 514]),
  (262511, [8, 13, 22, 38, 64, 108, 182, 306, 516]),
  (262694, [8, 13, 22, 38, 64, 108, 182, 307, 518]),
  (262876, [8, 13, 22, 38, 64, 109, 183, 308, 520]),
  (263058, [8, 13, 22, 38, 65, 109, 184, 310, 522]),
  (263239, [8, 13, 23, 38, 65, 109, 184, 311, 524]),
  (263419, [8, 13, 23, 38, 65, 110, 185, 312, 526]),
  (263598, [8, 13, 23, 38, 65, 110, 186, 313, 528]),
  (263777, [8, 13, 23, 39, 65, 110, 186, 314, 530]),
  (263955, [8, 13, 23, 39, 66, 111, 187, 315, 532]),
  (264132, [8, 13, 23, 39, 66, 111, 188, 316, 534]),
  (264309, [8, 13, 23, 39, 66, 111, 188, 318, 536]),
  (264485, [8, 13, 23, 39, 66, 112, 189, 319, 538]),
  (264661, [8, 13, 23, 39, 66, 112, 190, 320, 540]),
  (264835, [8, 13, 23, 39, 67, 113, 190, 321, 542]),
  (265009, [8, 14, 23, 39, 67, 113, 191, 322, 544]),
  (265183, [8, 14, 23, 40, 67, 113, 191, 323, 546]),
  (265356, [8, 14, 23, 40, 67, 114, 192, 324, 548]),
  (265528, [8, 14, 23, 40, 67, 114, 193, 325, 550]),
  (265700, [8, 14, 23, 40, 68, 114, 193, 327, 552]),
  (265871, [8, 14, 23, 40, 68, 115, 194, 328, 554]),
  (266041, [8, 14, 24, 40, 68, 115, 195, 329, 556]),
  (266211, [8, 14, 24, 40, 68, 115, 195, 330, 558]),
  (266380, [8, 14, 24, 40, 68, 116, 196, 331, 560]),
  (266548, [8, 14, 24, 40, 69, 116, 197, 332, 562]),
  (266716, [8, 14, 24, 41, 69, 117, 197, 333, 564]),
  (266884, [8, 14, 24, 41, 69, 117, 198, 335, 566]),
  (267050, [8, 14, 24, 41, 69, 117, 198, 336, 568]),
  (267217, [8, 14, 24, 41, 69, 118, 199, 337, 570]),
  (267382, [8, 14, 24, 41, 70, 118, 200, 338, 572]),
  (267547, [8, 14, 24, 41, 70, 118, 200, 339, 574]),
  (267712, [8, 14, 24, 41, 70, 119, 201, 340, 576]),
  (267875, [8, 14, 24, 41, 70, 119, 202, 341, 578]),
  (268039, [8, 14, 24, 41, 70, 119, 202, 342, 580]),
  (268201, [8, 14, 24, 42, 71, 120, 203, 344, 582]),
  (268364, [8, 14, 24, 42, 71, 120, 204, 345, 584]),
  (268525, [8, 14, 24, 42, 71, 120, 204, 346, 586]),
  (268686, [8, 14, 25, 42, 71, 121, 205, 347, 588]),
  (268847, [8, 14, 25, 42, 71, 121, 205, 348, 590]),
  (269007, [8, 14, 25, 42, 72, 122, 206, 349, 592]),
  (269166, [8, 14, 25, 42, 72, 122, 207, 350, 594]),
  (269325, [8, 14, 25, 42, 72, 122, 207, 351, 596]),
  (269484, [8, 14, 25, 42, 72, 123, 208, 353, 598]),
  (269641, [8, 15, 25, 43, 72, 123, 209, 354, 600]),
  (269799, [8, 15, 25, 43, 73, 123, 209, 355, 602]),
  (269956, [8, 15, 25, 43, 73, 124, 210, 356, 604]),
  (270112, [8, 15, 25, 43, 73, 124, 211, 357, 606]),
  (270268, [8, 15, 25, 43, 73, 124, 211, 358, 608]),
  (270423, [8, 15, 25, 43, 73, 125, 212, 359, 610]),
  (270578, [8, 15, 25, 43, 74, 125, 212, 361, 612]),
  (270732, [8, 15, 25, 43, 74, 125, 213, 362, 614]),
  (270886, [9, 15, 25, 43, 74, 126, 214, 363, 616]),
  (271039, [9, 15, 25, 44, 74, 126, 214, 364, 618]),
  (271192, [9, 15, 26, 44, 74, 127, 215, 365, 620]),
  (271344, [9, 15, 26, 44, 75, 127, 216, 366, 622]),
  (271496, [9, 15, 26, 44, 75, 127, 216, 367, 624]),
  (271647, [9, 15, 26, 44, 75, 128, 217, 368, 626]),
  (271798, [9, 15, 26, 44, 75, 128, 218, 370, 628]),
  (271948, [9, 15, 26, 44, 75, 128, 218, 371, 630]),
  (272098, [9, 15, 26, 44, 76, 129, 219, 372, 632]),
  (272247, [9, 15, 26, 44, 76, 129, 219, 373, 634]),
  (272396, [9, 15, 26, 45, 76, 129, 220, 374, 636]),
  (272544, [9, 15, 26, 45, 76, 130, 221, 375, 638]),
  (272692, [9, 15, 26, 45, 76, 130, 221, 376, 640]),
  (272840, [9, 15, 26, 45, 77, 130, 222, 377, 642]),
  (272987, [9, 15, 26, 45, 77, 131, 223, 379, 644]),
  (273134, [9, 15, 26, 45, 77, 131, 223, 380, 646]),
  (273280, [9, 15, 26, 45, 77, 132, 224, 381, 648]),
  (273425, [9, 15, 26, 45, 77, 132, 225, 382, 650]),
  (273571, [9, 15, 27, 45, 78, 132, 225, 383, 652]),
  (273715, [9, 15, 27, 46, 78, 133, 226, 384, 654]),
  (273860, [9, 15, 27, 46, 78, 133, 226, 385, 656]),
  (274004, [9, 16, 27, 46, 78, 133, 227, 386, 658]),
  (274147, [9, 16, 27, 46, 78, 134, 228, 388, 660]),
  (274290, [9, 16, 27, 46, 79, 134, 228, 389, 662]),
  (274433, [9, 16, 27, 46, 79, 134, 229, 390, 664]),
  (274575, [9, 16, 27, 46, 79, 135, 230, 391, 666]),
  (274717, [9, 16, 27, 46, 79, 135, 230, 392, 668]),
  (274858, [9, 16, 27, 46, 79, 135, 231, 393, 670]),
  (274999, [9, 16, 27, 47, 80, 136, 231, 394, 672]),
  (275139, [9, 16, 27, 47, 80, 136, 232, 395, 674]),
  (275280, [9, 16, 27, 47, 80, 136, 233, 397, 676]),
  (275419, [9, 16, 27, 47, 80, 137, 233, 398, 678]),
  (275558, [9, 16, 27, 47, 80, 137, 234, 399, 680]),
  (275697, [9, 16, 27, 47, 81, 138, 235, 400, 682]),
  (275836, [9, 16, 28, 47, 81, 138, 235, 401, 684]),
  (275974, [9, 16, 28, 47, 81, 138, 236, 402, 686]),
  (276111, [9, 16, 28, 47, 81, 139, 237, 403, 688]),
  (276249, [9, 16, 28, 48, 81, 139, 237, 404, 690]),
  (276385, [9, 16, 28, 48, 82, 139, 238, 406, 692]),
  (276522, [9, 16, 28, 48, 82, 140, 238, 407, 694]),
  (276658, [9, 16, 28, 48, 82, 140, 239, 408, 696]),
  (276794, [9, 16, 28, 48, 82, 140, 240, 409, 698]),
  (276929, [9, 16, 28, 48, 82, 141, 240, 410, 700]),
  (277064, [9, 16, 28, 48, 83, 141, 241, 411, 702]),
  (277198, [9, 16, 28, 48, 83, 141, 242, 412, 704]),
  (277332, [9, 16, 28, 48, 83, 142, 242, 413, 706]),
  (277466, [9, 16, 28, 49, 83, 142, 243, 415, 708]),
  (277599, [9, 16, 28, 49, 83, 142, 243, 416, 710]),
  (277732, [9, 16, 28, 49, 84, 143, 244, 417, 712]),
  (277865, [9, 16, 28, 49, 84, 143, 245, 418, 714]),
  (277997, [9, 16, 28, 49, 84, 144, 245, 419, 716]),
  (278129, [9, 17, 29, 49, 84, 144, 246, 420, 718]),
  (278261, [9, 17, 29, 49, 84, 144, 247, 421, 720]),
  (278392, [10, 17, 29, 49, 84, 145, 247, 422, 722]),
  (278522, [10, 17, 29, 49, 85, 145, 248, 424, 724]),
  (278653, [10, 17, 29, 49, 85, 145, 248, 425, 726]),
  (278783, [10, 17, 29, 50, 85, 146, 249, 426, 728]),
  (278913, [10, 17, 29, 50, 85, 146, 250, 427, 730]),
  (279042, [10, 17, 29, 50, 85, 146, 250, 428, 732]),
  (279171, [10, 17, 29, 50, 86, 147, 251, 429, 734]),
  (279300, [10, 17, 29, 50, 86, 147, 252, 430, 736]),
  (279428, [10, 17, 29, 50, 86, 147, 252, 431, 738]),
  (279556, [10, 17, 29, 50, 86, 148, 253, 432, 740]),
  (279683, [10, 17, 29, 50, 86, 148, 253, 434, 742]),
  (279811, [10, 17, 29, 50, 87, 148, 254, 435, 744]),
  (279938, [10, 17, 29, 51, 87, 149, 255, 436, 746]),
  (280064, [10, 17, 29, 51, 87, 149, 255, 437, 748]),
  (280190, [10, 17, 29, 51, 87, 149, 256, 438, 750]),
  (280316, [10, 17, 30, 51, 87, 150, 257, 439, 752]),
  (280442, [10, 17, 30, 51, 88, 150, 257, 440, 754]),
  (280567, [10, 17, 30, 51, 88, 151, 258, 441, 756]),
  (280692, [10, 17, 30, 51, 88, 151, 258, 443, 758]),
  (280817, [10, 17, 30, 51, 88, 151, 259, 444, 760]),
  (280941, [10, 17, 30, 51, 88, 152, 260, 445, 762]),
  (281065, [10, 17, 30, 52, 89, 152, 260, 446, 764]),
  (281188, [10, 17, 30, 52, 89, 152, 261, 447, 766]),
  (281312, [10, 17, 30, 52, 89, 153, 262, 448, 768]),
  (281435, [10, 17, 30, 52, 89, 153, 262, 449, 770]),
  (281557, [10, 17, 30, 52, 89, 153, 263, 450, 772]),
  (281679, [10, 17, 30, 52, 90, 154, 263, 452, 774]),
  (281801, [10, 17, 30, 52, 90, 154, 264, 453, 776]),
  (281923, [10, 18, 30, 52, 90, 154, 265, 454, 778]),
  (282044, [10, 18, 30, 52, 90, 155, 265, 455, 780]),
  (282166, [10, 18, 30, 53, 90, 155, 266, 456, 782]),
  (282286, [10, 18, 31, 53, 91, 155, 267, 457, 784]),
  (282407, [10, 18, 31, 53, 91, 156, 267, 458, 786]),
  (282527, [10, 18, 31, 53, 91, 156, 268, 459, 788]),
  (282647, [10, 18, 31, 53, 91, 156, 268, 460, 790]),
  (282766, [10, 18, 31, 53, 91, 157, 269, 462, 792]),
  (282885, [10, 18, 31, 53, 91, 157, 270, 463, 794]),
  (283004, [10, 18, 31, 53, 92, 157, 270, 464, 796]),
  (283123, [10, 18, 31, 53, 92, 158, 271, 465, 798]),
  (283241, [10, 18, 31, 53, 92, 158, 272, 466, 800]),
  (283359, [10, 18, 31, 54, 92, 159, 272, 467, 802]),
  (283477, [10, 18, 31, 54, 92, 159, 273, 468, 804]),
  (283595, [10, 18, 31, 54, 93, 159, 273, 469, 806]),
  (283712, [10, 18, 31, 54, 93, 160, 274, 471, 808]),
  (283829, [10, 18, 31, 54, 93, 160, 275, 472, 810]),
  (283945, [10, 18, 31, 54, 93, 160, 275, 473, 812]),
  (284062, [10, 18, 31, 54, 93, 161, 276, 474, 814]),
  (284178, [10, 18, 31, 54, 94, 161, 277, 475, 816]),
  (284293, [10, 18, 32, 54, 94, 161, 277, 476, 818]),
  (284409, [10, 18, 32, 55, 94, 162, 278, 477, 820]),
  (284524, [10, 18, 32, 55, 94, 162, 278, 478, 822]),
  (284639, [10, 18, 32, 55, 94, 162, 279, 479, 824]),
  (284753, [10, 18, 32, 55, 95, 163, 280, 481, 826]),
  (284868, [10, 18, 32, 55, 95, 163, 280, 482, 828]),
  (284982, [10, 18, 32, 55, 95, 163, 281, 483, 830]),
  (285096, [10, 18, 32, 55, 95, 164, 282, 484, 832]),
  (285209, [11, 18, 32, 55, 95, 164, 282, 485, 834]),
  (285322, [11, 18, 32, 55, 96, 164, 283, 486, 836]),
  (285435, [11, 18, 32, 55, 96, 165, 283, 487, 838]),
  (285548, [11, 19, 32, 56, 96, 165, 284, 488, 840]),
  (285660, [11, 19, 32, 56, 96, 165, 285, 490, 842]),
  (285772, [11, 19, 32, 56, 96, 166, 285, 491, 844]),
  (285884, [11, 19, 32, 56, 96, 166, 286, 492, 846]),
  (285996, [11, 19, 32, 56, 97, 166, 287, 493, 848]),
  (286107, [11, 19, 32, 56, 97, 167, 287, 494, 850]),
  (286218, [11, 19, 33, 56, 97, 167, 288, 495, 852]),
  (286329, [11, 19, 33, 56, 97, 168, 288, 496, 854]),
  (286440, [11, 19, 33, 56, 97, 168, 289, 497, 856]),
  (286550, [11, 19, 33, 57, 98, 168, 290, 498, 858]),
  (286660, [11, 19, 33, 57, 98, 169, 290, 500, 860]),
  (286770, [11, 19, 33, 57, 98, 169, 291, 501, 862]),
  (286880, [11, 19, 33, 57, 98, 169, 292, 502, 864]),
  (286989, [11, 19, 33, 57, 98, 170, 292, 503, 866]),
  (287098, [11, 19, 33, 57, 99, 170, 293, 504, 868]),
  (287207, [11, 19, 33, 57, 99, 170, 293, 505, 870]),
  (287315, [11, 19, 33, 57, 99, 171, 294, 506, 872]),
  (287424, [11, 19, 33, 57, 99, 171, 295, 507, 874]),
  (287532, [11, 19, 33, 58, 99, 171, 295, 508, 876]),
  (287640, [11, 19, 33, 58, 100, 172, 296, 510, 878]),
  (287747, [11, 19, 33, 58, 100, 172, 296, 511, 880])]

/-- The check of one row: `a / 2^15` and `c / 2^15` enclose `log₂ m`, and the values are the ones they determine. -/
def rowOk (m a : Nat) (vs : List Nat) : Bool :=
  let p := m ^ 32768
  let q := 2 ^ a
  let c := if p = q then a else a + 1
  decide (q ≤ p) && decide (p ≤ 2 ^ c) && (List.range 9).all (fun i =>
    let v := (vs[i]?).getD 0
    decide (v ^ 4 * c ^ (8 - i) ≤ (2 * m) ^ 4 * 32768 ^ (8 - i)) &&
    decide ((2 * m) ^ 4 * 32768 ^ (8 - i) < (v + 1) ^ 4 * a ^ (8 - i)))

/-- The value of the table. -/
def tv (m i : Nat) : Nat := (((tab128[m - 128]?).getD (0, [])).2[i]?).getD 0

theorem tab128_ok : (List.range 313).all (fun j =>
    rowOk (128 + j) ((tab128[j]?).getD (0, [])).1 ((tab128[j]?).getD (0, [])).2) = true := by decide +kernel

theorem real128 {m i : Nat} (h1 : 128 ≤ m) (h2 : m ≤ 440) (hi : i < 9) : realSizing.maxsz m i = tv m i := by
  have h := List.all_eq_true.1 tab128_ok (m - 128) (List.mem_range.2 (by omega))
  rw [show 128 + (m - 128) = m by omega] at h
  unfold tv
  generalize (tab128[m - 128]?).getD (0, []) = r at h
  unfold rowOk at h
  simp only [Bool.and_eq_true, decide_eq_true_eq, List.all_eq_true, List.mem_range] at h
  obtain ⟨⟨a1, a2⟩, a3⟩ := h
  obtain ⟨b1, b2⟩ := a3 i hi
  exact maxsz_eq (by omega) (by omega) (by norm_num) (by norm_num) a1 a2 b1 b2

/-- `realSizing`, computed by table for `128 ≤ m ≤ 440`. -/
noncomputable def S128 : Sizing where
  maxsz m i := if 128 ≤ m ∧ m ≤ 440 ∧ i < 9 then tv m i else realSizing.maxsz m i
  rebuild := realSizing.rebuild

theorem realSizing_eq_128 : realSizing = S128 := by
  have h1 : realSizing.maxsz = S128.maxsz := by
    funext m i
    show _ = if 128 ≤ m ∧ m ≤ 440 ∧ i < 9 then _ else _
    split
    · rename_i h; exact real128 h.1 h.2.1 h.2.2
    · rfl
  have h2 : realSizing.rebuild = S128.rebuild := rfl
  cases hr : realSizing
  cases hs : S128
  rw [hr, hs] at h1 h2
  simp_all

end DK2
